import Verif.SpecBBS
import Verif.Lemmas.Prim
import Verif.Lemmas.Progress
import Mathlib.Tactic.Abel
import Mathlib.Tactic.Linarith

/-! Lemmas about BBS+ signatures. -/

set_option linter.unusedSectionVars false

namespace Zksk

open Spec

variable {E : Type} [AddCommGroup E] [DecidableEq E]

theorem listAt_ok {α : Type} {l : List α} {i : Nat} {a : α} : listAt l i = .ok a ↔ l[i]? = some a := by
  unfold listAt
  split
  · rename_i b h; simp [h]
  · rename_i h; simp [h]

theorem lin_append (ms extra : List Int) (gs : List (Pt E)) (h : gs.length ≤ ms.length) :
    lin (ms ++ extra) gs = lin ms gs := by
  unfold lin
  induction ms generalizing gs with
  | nil =>
    have : gs = [] := List.length_eq_zero_iff.mp (by simpa using h)
    subst this
    simp
  | cons m ms ih =>
    cases gs with
    | nil => simp
    | cons g gs =>
      simp only [List.cons_append, List.zipWith_cons_cons, List.sum_cons]
      rw [ih gs (by simpa using h)]

theorem lin_zeros (ms : List Int) (n : Nat) (gs : List (Pt E)) :
    lin (ms ++ List.replicate n 0) gs = lin ms gs := by
  unfold lin
  induction ms generalizing gs with
  | nil =>
    induction n generalizing gs with
    | zero => rfl
    | succ n ih =>
      cases gs with
      | nil => simp
      | cons g gs =>
        have := ih gs
        simp only [List.nil_append, List.zipWith_nil_left, List.sum_nil] at this
        simp [List.replicate_succ, this]
  | cons m ms ih =>
    cases gs with
    | nil => simp
    | cons g gs =>
      simp only [List.cons_append, List.zipWith_cons_cons, List.sum_cons]
      rw [ih gs]

theorem lin_take (ms : List Int) (gs : List (Pt E)) (n : Nat) (h : ms.length ≤ n) :
    lin ms (gs.take n) = lin ms gs := by
  unfold lin
  induction ms generalizing gs n with
  | nil => simp
  | cons m ms ih =>
    cases gs with
    | nil => simp
    | cons g gs =>
      cases n with
      | zero => simp at h
      | succ n =>
        simp only [List.take_succ_cons, List.zipWith_cons_cons, List.sum_cons]
        rw [ih gs n (by simpa using h)]

theorem lin_sub (gs : List (Pt E)) : ∀ (ms ms' : List Int), lin ms gs - lin ms' gs =
    lin ((List.range gs.length).map fun i => ms.getD i 0 - ms'.getD i 0) gs := by
  unfold lin
  induction gs with
  | nil => intro ms ms'; simp
  | cons g gs ih =>
    intro ms ms'
    rw [List.length_cons, List.range_succ_eq_map, List.map_cons, List.map_map, List.zipWith_cons_cons,
      List.sum_cons]
    have h1 : ∀ l : List Int, (List.zipWith (fun (m : Int) (g : Pt E) => m • g.val) l (g :: gs)).sum =
        l.getD 0 0 • g.val + (List.zipWith (fun (m : Int) (g : Pt E) => m • g.val) l.tail gs).sum := by
      intro l
      cases l <;> simp
    rw [h1 ms, h1 ms']
    have h2 : ((fun i => ms.getD i 0 - ms'.getD i 0) ∘ Nat.succ) =
        fun i => ms.tail.getD i 0 - ms'.tail.getD i 0 := by
      funext i
      cases ms <;> cases ms' <;> simp
    rw [h2, ← ih ms.tail ms'.tail, sub_smul]
    abel

theorem wsum_lin {g : Grp} (hg : g.strict = false) (ns : List Int) (ps : List (Pt E))
    (h : ∀ p ∈ ps, p.grp = g) : g.wsum (ns.map .int) ps = .ok ⟨g, lin ns ps⟩ := by
  unfold Grp.wsum
  rw [if_neg (by simp [hg])]
  rw [wsumGo_ok]
  refine ⟨ns.take ps.length, by simp, fun b hb => h b (List.mem_of_mem_take hb), ?_⟩
  simp only [Grp.inf, zero_add, Pt.mk.injEq, true_and, lin]
  congr 1
  induction ns generalizing ps with
  | nil => simp
  | cons n ns ih =>
    cases ps with
    | nil => simp
    | cons p ps =>
      simp only [List.length_cons, List.take_succ_cons, List.zipWith_cons_cons, List.cons.injEq, true_and]
      exact ih ps fun q hq => h q (by simp [hq])

theorem pt_add_of {p q : Pt E} (h : p.grp = q.grp) : p.add q = .ok ⟨p.grp, p.val + q.val⟩ := by
  simp [Pt.add, h]

/-- The check of a signature, as an equation. -/
theorem verify_eq {P : Pairing E} {pk : PublicKey E} (hk : GoodKey P pk) {g0 g1 : Pt E} {gs : List (Pt E)}
    (hg : pk.generators = g0 :: g1 :: gs) (sig : Signature E) (ms : List Int) (hA : sig.A.grp = P.G1) :
    sig.verify P pk ms = .ok (decide (P.e sig.A.val (pk.w.val + sig.e • pk.h0.val) =
      P.e (g0.val + sig.s • g1.val + lin ms gs) pk.h0.val)) := by
  have hgr := hk.g1
  rw [hg] at hgr
  have h0 := hgr g0 (by simp)
  have h1 := hgr g1 (by simp)
  unfold Signature.verify
  have e0 : listAt (pk.generators.take (ms.length + 2)) 0 = .ok g0 := by
    rw [listAt_ok, hg]; simp
  have e1 : (pk.generators.take (ms.length + 2)).drop 1 = g1 :: gs.take ms.length := by
    rw [hg]; simp
  simp only [e0, bind_ok, e1, h0]
  rw [wsum_lin rfl]
  · simp only [bind_ok]
    rw [pt_add_of (by rw [h0])]
    simp only [bind_ok]
    rw [pt_add_of (by rw [hk.w, Pt.smul, hk.h0])]
    simp only [bind_ok, Pairing.pair, hA, hk.w, hk.h0, h0, Pt.smul, if_true]
    have : lin (sig.s :: ms) (g1 :: gs.take ms.length) = sig.s • g1.val + lin ms gs := by
      rw [← lin_take ms gs ms.length le_rfl]
      simp [lin]
    rw [this, ← add_assoc]
    simp
  · intro p hp
    simp only [List.mem_cons] at hp
    rcases hp with rfl | hp
    · exact h1
    · exact hgr p (by simp [List.mem_of_mem_take hp])

/-- `verify_signature` is the equation of BBS+ signatures. -/
theorem verify_iff_sigEq {P : Pairing E} {pk : PublicKey E} (hk : GoodKey P pk) (sig : Signature E) (ms : List Int)
    (hA : sig.A.grp = P.G1) : sig.verify P pk ms = .ok true ↔ SigEq P pk sig.A.val sig.e sig.s ms := by
  obtain ⟨g0, g1, gs, hg⟩ : ∃ g0 g1 gs, pk.generators = g0 :: g1 :: gs := by
    have := hk.len
    match h : pk.generators with
    | [] => simp [h] at this
    | [_] => simp [h] at this
    | g0 :: g1 :: gs => exact ⟨_, _, _, rfl⟩
  rw [verify_eq hk hg sig ms hA]
  constructor
  · intro h
    exact ⟨g0, g1, gs, hg, of_decide_eq_true (Except.ok.inj h)⟩
  · rintro ⟨g0', g1', gs', hg', h⟩
    rw [hg] at hg'
    simp only [List.cons.injEq] at hg'
    obtain ⟨rfl, rfl, rfl⟩ := hg'
    rw [decide_eq_true h]

/-- An accepted signature is in `G1`. -/
theorem verify_G1 {P : Pairing E} {pk : PublicKey E} {sig : Signature E} {ms : List Int} {b : Bool}
    (h : sig.verify P pk ms = .ok b) : sig.A.grp = P.G1 := by
  unfold Signature.verify at h
  obtain ⟨_, _, h⟩ := bind_ok_iff.mp h
  obtain ⟨_, _, h⟩ := bind_ok_iff.mp h
  obtain ⟨_, _, h⟩ := bind_ok_iff.mp h
  obtain ⟨_, _, h⟩ := bind_ok_iff.mp h
  obtain ⟨_, h1, _⟩ := bind_ok_iff.mp h
  unfold Pairing.pair at h1
  by_contra hne
  rw [if_neg hne] at h1
  cases h1

theorem modInverse_ok {a i : Int} {m : Nat} (h : modInverse a m = .ok i) : (m : Int) ∣ i * a - 1 := by
  unfold modInverse at h
  split at h
  · rename_i hg
    injection h with h
    subst h
    have hb := Int.gcd_eq_gcd_ab a m
    rw [hg] at hb
    have h2 : (m : Int) ∣ a.gcdA m - a.gcdA m % m := Int.dvd_self_sub_emod
    obtain ⟨c, hc⟩ := h2
    refine ⟨-(c * a) - a.gcdB m, ?_⟩
    have : a.gcdA m % m = a.gcdA m - m * c := by omega
    rw [this]
    push_cast at hb
    ring_nf
    ring_nf at hb
    linarith
  · cases h

theorem modInverse_of {a : Int} {m : Nat} (h : Int.gcd a m = 1) : ∃ i, modInverse a m = .ok i := by
  unfold modInverse
  rw [if_pos h]
  exact ⟨_, rfl⟩

theorem smul_of_dvd {m k : Int} {x : E} (hd : m ∣ k) (hx : m • x = 0) : k • x = 0 := by
  obtain ⟨c, rfl⟩ := hd
  rw [mul_comm, mul_smul, hx, smul_zero]

theorem pair_ok {P : Pairing E} {p q r : Pt E} (h : P.pair p q = .ok r) :
    p.grp = P.G1 ∧ q.grp = P.G2 ∧ r = ⟨P.GT, P.e p.val q.val⟩ := by
  unfold Pairing.pair at h
  split at h
  · split at h
    · injection h with h
      exact ⟨‹_›, ‹_›, h.symm⟩
    · cases h
  · cases h

theorem pair_of {P : Pairing E} {p q : Pt E} (hp : p.grp = P.G1) (hq : q.grp = P.G2) :
    P.pair p q = .ok ⟨P.GT, P.e p.val q.val⟩ := by
  simp [Pairing.pair, hp, hq]

theorem pairAll_ok {P : Pairing E} {h0 : Pt E} (hh : h0.grp = P.G2) : ∀ (gs : List (Pt E)),
    (∀ g ∈ gs, g.grp = P.G1) → pairAll P h0 gs = .ok (gs.map fun g => ⟨P.GT, P.e g.val h0.val⟩)
  | [], _ => rfl
  | g :: gs, h => by
    simp only [pairAll]
    rw [pair_of (h g (by simp)) hh]
    simp only [bind_ok]
    rw [pairAll_ok hh gs fun x hx => h x (by simp [hx])]
    rfl

/-- What a signature run gives. -/
theorem sign_ok {sk : SecretKey E} {lhs : Pt E} {w w' : World} {p : Signature E}
    (h : sk.sign lhs w = .ok (p, w')) : ∃ g0 g1 i, sk.generators[0]? = some g0 ∧ sk.generators[1]? = some g1 ∧
      g0.grp = g1.grp ∧ g0.grp = lhs.grp ∧ modInverse (sk.gamma + p.e) sk.h0.grp.order = .ok i ∧
      p.A = ⟨g0.grp, i • (g0.val + p.s • g1.val + lhs.val)⟩ ∧ w'.store = w.store := by
  unfold SecretKey.sign at h
  obtain ⟨e, w1, h1, h⟩ := pm_bind.mp h
  obtain ⟨s2, w2, h2, h⟩ := pm_bind.mp h
  obtain ⟨g0, h3, h⟩ := pm_liftE_bind_iff.mp h
  obtain ⟨g1, h4, h⟩ := pm_liftE_bind_iff.mp h
  obtain ⟨q, h5, h⟩ := pm_liftE_bind_iff.mp h
  obtain ⟨prod, h6, h⟩ := pm_liftE_bind_iff.mp h
  obtain ⟨i, h7, h⟩ := pm_liftE_bind_iff.mp h
  rw [pm_pure_iff, Prod.mk.injEq] at h
  obtain ⟨rfl, rfl⟩ := h
  unfold Pt.add at h5 h6
  split at h5
  · rename_i e5
    injection h5 with h5; subst h5
    split at h6
    · rename_i e6
      injection h6 with h6; subst h6
      exact ⟨g0, g1, i, listAt_ok.mp h3, listAt_ok.mp h4, e5, e6, h7, rfl,
        ((draw_ok h2).2.2.2).trans (draw_ok h1).2.2.2⟩
    · cases h6
  · cases h5

theorem respondGo_length {σ : Store} {vals : Dict Int} {q : Nat} {c : Int} : ∀ {vs : List Sec} {ks rs : List Int},
    DLRepProver.respondGo σ vals q c vs ks = .ok rs → rs.length = ks.length
  | v :: vs, k :: ks, rs, h => by
    simp only [DLRepProver.respondGo] at h
    obtain ⟨x, _, h⟩ := bind_ok_iff.mp h
    obtain ⟨rs', h1, h⟩ := bind_ok_iff.mp h
    injection h with h
    subst h
    simp [respondGo_length h1]
  | [], _ :: _, rs, h => by cases h
  | [], [], rs, h => by
    simp only [DLRepProver.respondGo] at h
    injection h with h
    subst h; rfl
  | _ :: _, [], rs, h => by
    simp only [DLRepProver.respondGo] at h
    injection h with h
    subst h; rfl

theorem lookupAll_length {σ : Store} {d : Dict Int} : ∀ {vs : List Sec} {ks : List Int},
    DLRep.lookupAll σ d vs = .ok ks → ks.length = vs.length
  | [], ks, h => by
    simp only [DLRep.lookupAll] at h
    injection h with h
    subst h; rfl
  | v :: vs, ks, h => by
    simp only [DLRep.lookupAll] at h
    obtain ⟨x, _, h⟩ := bind_ok_iff.mp h
    obtain ⟨rs', h1, h⟩ := bind_ok_iff.mp h
    injection h with h
    subst h
    simp [lookupAll_length h1]

/-- A proof of a representation has one response for each secret. -/
theorem prove_rep_responses {env : Env E} {s : DLRep E} {d : Dict Int} {msg : String} {w w' : World}
    {nizk : NIZK E} {t' : Core E} (h : prove (DLRepProver E) env (.leaf s) d msg w = .ok ((nizk, t'), w')) :
    ∃ rs : List Int, nizk.responses = .list (rs.map Val.int) ∧ rs.length = s.secretVars.length := by
  unfold prove at h
  obtain ⟨⟨p, t1⟩, w1, h1, h⟩ := pm_bind.mp h
  cases p with
  | none => exact (raise_ne.mp h).elim
  | some p =>
    obtain ⟨⟨n', p'⟩, w2, h2, h⟩ := pm_bind.mp h
    rw [pm_pure_iff, Prod.mk.injEq, Prod.mk.injEq] at h
    obtain ⟨⟨rfl, rfl⟩, rfl⟩ := h
    obtain ⟨q, rfl, hq⟩ : ∃ q, p = .leaf q ∧ q.stmt.secretVars = s.secretVars := by
      simp only [PTree.getProver] at h1
      obtain ⟨⟨q, s'⟩, w3, h3, h1⟩ := pm_bind.mp h1
      rw [pm_pure_iff, Prod.mk.injEq, Prod.mk.injEq] at h1
      obtain ⟨⟨h1, _⟩, _⟩ := h1
      simp only [ProverOps.getProver] at h3
      unfold DLRepProver.getProver at h3
      rw [pm_getStore_bind] at h3
      split at h3
      · rw [pm_pure_iff, Prod.mk.injEq, Prod.mk.injEq] at h3
        obtain ⟨⟨rfl, _⟩, _⟩ := h3
        simp at h1
      · rw [pm_pure_iff, Prod.mk.injEq, Prod.mk.injEq] at h3
        obtain ⟨⟨rfl, _⟩, _⟩ := h3
        simp only [Option.map_some, Option.some.injEq] at h1
        exact ⟨_, h1.symm, rfl⟩
    unfold PTree.getNizkProof at h2
    obtain ⟨⟨pre, p1⟩, w3, h3, h2⟩ := pm_bind.mp h2
    obtain ⟨⟨com, p2⟩, w4, h4, h2⟩ := pm_bind.mp h2
    dsimp only at h2
    rw [pm_getStore_bind] at h2
    obtain ⟨id, _, h2⟩ := pm_liftE_bind_iff.mp h2
    obtain ⟨c, _, h2⟩ := pm_liftE_bind_iff.mp h2
    obtain ⟨r, w5, h5, h2⟩ := pm_bind.mp h2
    rw [pm_pure_iff, Prod.mk.injEq, Prod.mk.injEq] at h2
    obtain ⟨⟨rfl, rfl⟩, rfl⟩ := h2
    simp only [PTree.precommit, ProverOps.precommit] at h3
    obtain ⟨⟨v, q1⟩, w6, h6, h3⟩ := pm_bind.mp h3
    rw [pm_pure_iff, Prod.mk.injEq, Prod.mk.injEq] at h6 h3
    obtain ⟨⟨rfl, rfl⟩, rfl⟩ := h6
    obtain ⟨⟨rfl, rfl⟩, rfl⟩ := h3
    simp only [PTree.internalCommit, ProverOps.internalCommit] at h4
    obtain ⟨⟨v, q1⟩, w7, h7, h4⟩ := pm_bind.mp h4
    rw [pm_pure_iff, Prod.mk.injEq, Prod.mk.injEq] at h4
    obtain ⟨⟨rfl, rfl⟩, rfl⟩ := h4
    unfold DLRepProver.internalCommit at h7
    obtain ⟨d', w8, _, h7⟩ := pm_bind.mp h7
    rw [pm_getStore_bind] at h7
    obtain ⟨ks, hks, h7⟩ := pm_liftE_bind_iff.mp h7
    obtain ⟨cm, _, h7⟩ := pm_liftE_bind_iff.mp h7
    rw [pm_pure_iff, Prod.mk.injEq, Prod.mk.injEq] at h7
    obtain ⟨⟨rfl, rfl⟩, rfl⟩ := h7
    simp only [PTree.computeResponse, ProverOps.computeResponse] at h5
    unfold DLRepProver.computeResponse at h5
    rw [pm_getStore_bind] at h5
    dsimp only at h5
    cases hb : q.stmt.bases with
    | nil =>
      simp only [hb] at h5
      exact (raise_ne.mp h5).elim
    | cons b bs =>
      simp only [hb] at h5
      obtain ⟨rs, h8, h5⟩ := pm_liftE_bind_iff.mp h5
      rw [pm_pure_iff, Prod.mk.injEq] at h5
      obtain ⟨rfl, _⟩ := h5
      exact ⟨rs, rfl, by rw [respondGo_length h8, lookupAll_length hks, hq]⟩

theorem repOf_ok {σ : Store} {lhs : Pt E} {vs : List Sec} {bs : List (Pt E)} {s : DLRep E}
    (h : repOf σ lhs vs bs = .ok s) : s = ⟨lhs, bs, vs, knownValues σ vs [], false⟩ ∧
      vs.length = bs.length ∧ bs ≠ [] ∧ ∀ p ∈ bs, ∀ q ∈ bs, p.grp = q.grp := by
  unfold repOf at h
  split at h
  · cases h
  · rename_i hl
    obtain ⟨h1, h2, h3⟩ := mkDLRep_ok h
    exact ⟨h1, not_not.mp hl, h2, h3⟩

theorem repOf_of {σ : Store} {lhs : Pt E} {vs : List Sec} {bs : List (Pt E)} {g : Grp}
    (hl : vs.length = bs.length) (hb : bs ≠ []) (hg : ∀ p ∈ bs, p.grp = g) :
    repOf σ lhs vs bs = .ok ⟨lhs, bs, vs, knownValues σ vs [], false⟩ := by
  unfold repOf
  rw [if_neg (by simp [hl])]
  exact mkDLRep_of hb hg

/-- What a commitment is. -/
theorem commit_ok {P : Pairing E} {env : Env E} {c c' : Creator E} {ms : List Int} {zkp : Bool} {next : Nat}
    {w w' : World} {m : UserCommitment E} {g0 g1 : Pt E} {gs : List (Pt E)}
    (hg : c.pk.generators = g0 :: g1 :: gs) (hgr : ∀ g ∈ c.pk.generators, g.grp = P.G1)
    (h : c.commit env ms zkp next w = .ok ((m, c'), w')) :
    (zkp = false ∧ m.com = ⟨P.G1, lin ms gs⟩ ∧ m.proof = none ∧ c' = c ∧ w' = w) ∨
    (zkp = true ∧ ∃ s1 : Int, m.com = ⟨P.G1, s1 • g1.val + lin ms gs⟩ ∧ m.proof.isSome ∧ c' = ⟨c.pk, some s1⟩ ∧
      s1 = (w.rng 0 % P.order : Nat)) := by
  rw [hg] at hgr
  have h0 := hgr g0 (by simp)
  have h1 := hgr g1 (by simp)
  unfold Creator.commit at h
  have e0 : listAt c.pk.generators 0 = .ok g0 := by rw [listAt_ok, hg]; rfl
  have e1 : listAt c.pk.generators 1 = .ok g1 := by rw [listAt_ok, hg]; rfl
  have e2 : (c.pk.generators.drop 2).take ms.length = gs.take ms.length := by rw [hg]; rfl
  have e3 : g0.grp.wsum (ms.map .int) (gs.take ms.length) = .ok ⟨P.G1, lin ms gs⟩ := by
    rw [h0, wsum_lin rfl _ _ (fun p hp => hgr p (by simp [List.mem_of_mem_take hp])), lin_take _ _ _ le_rfl]
  rw [e0, e2] at h
  obtain ⟨_, h2, h⟩ := pm_liftE_bind_iff.mp h
  injection h2 with h2; subst h2
  rw [e3] at h
  obtain ⟨_, h2, h⟩ := pm_liftE_bind_iff.mp h
  injection h2 with h2; subst h2
  cases zkp with
  | false =>
    rw [pm_pure_iff, Prod.mk.injEq, Prod.mk.injEq] at h
    obtain ⟨⟨rfl, rfl⟩, rfl⟩ := h
    exact .inl ⟨rfl, rfl, rfl, rfl, rfl⟩
  | true =>
    simp only at h
    obtain ⟨s1, w1, h2, h⟩ := pm_bind.mp h
    obtain ⟨_, h3, h⟩ := pm_liftE_bind_iff.mp h
    rw [e1] at h3
    injection h3 with h3; subst h3
    obtain ⟨_, h4, h⟩ := pm_liftE_bind_iff.mp h
    rw [pt_add_of (by rw [Pt.smul, h1])] at h4
    injection h4 with h4; subst h4
    rw [pm_getStore_bind] at h
    obtain ⟨s, h5, h⟩ := pm_liftE_bind_iff.mp h
    obtain ⟨⟨nizk, t⟩, w2, h6, h⟩ := pm_bind.mp h
    rw [pm_pure_iff, Prod.mk.injEq, Prod.mk.injEq] at h
    obtain ⟨⟨rfl, rfl⟩, rfl⟩ := h
    refine .inr ⟨rfl, s1, ?_, rfl, rfl, ?_⟩
    · simp [Pt.smul, h1]
    · unfold draw at h2
      rw [h0] at h2
      split at h2
      · cases h2
      · injection h2 with h2
        exact (congrArg Prod.fst h2).symm

/-- The equation of a signature made for a commitment. -/
theorem sign_sigEq {P : Pairing E} {sk : SecretKey E} {pk : PublicKey E} (hk : KeyPair P sk pk)
    {g0 g1 : Pt E} {gs : List (Pt E)} (hg : pk.generators = g0 :: g1 :: gs) {lhs : Pt E} {w w' : World}
    {p : Signature E} (h : sk.sign lhs w = .ok (p, w')) :
    p.A.grp = P.G1 ∧
      P.e p.A.val (pk.w.val + p.e • pk.h0.val) = P.e (g0.val + p.s • g1.val + lhs.val) pk.h0.val := by
  obtain ⟨g0', g1', i, e0, e1, hgg, hgl, hi, hA, _⟩ := sign_ok h
  rw [hk.gens, hg] at e0 e1
  simp only [List.getElem?_cons_zero, List.getElem?_cons_succ, Option.some.injEq] at e0 e1
  subst e0; subst e1
  have hdvd := modInverse_ok hi
  rw [hk.h0, hk.good.h0] at hdvd
  rw [hA]
  refine ⟨hk.good.g1 g0 (by rw [hg]; simp), ?_⟩
  simp only
  rw [hk.w, ← add_smul, map_zsmul, map_zsmul, AddMonoidHom.smul_apply, ← mul_smul]
  generalize hx : P.e (g0.val + p.s • g1.val + lhs.val) pk.h0.val = x
  have hord : (P.order : Int) • x = 0 := by
    rw [← hx, ← map_zsmul, hk.ord, map_zero]
  have h0 := smul_of_dvd hdvd hord
  rw [sub_smul, one_smul, sub_eq_zero] at h0
  rw [mul_comm]
  exact h0

end Zksk
