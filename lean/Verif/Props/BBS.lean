import Verif.Lemmas.BBS
import Verif.Lemmas.RangeRun
import Verif.Props.Complete
import Verif.Props.Expr
import Mathlib.Algebra.Ring.Prod

/-! # C41-C43: BBS+ signatures -/

set_option linter.unusedSectionVars false

namespace Zksk.Props

open Spec

variable {E : Type} [AddCommGroup E] [DecidableEq E]

theorem gens_split {P : Pairing E} {pk : PublicKey E} (hk : GoodKey P pk) :
    ∃ g0 g1 gs, pk.generators = g0 :: g1 :: gs := by
  have := hk.len
  match h : pk.generators with
  | [] => simp [h] at this
  | [_] => simp [h] at this
  | g0 :: g1 :: gs => exact ⟨_, _, _, rfl⟩

/-! ### C41 -/

/-- **C41** `BBSPlusKeypair.generate` gives a key pair in the sense of the theorems below, with two generators
more than asked for, provided hashing to the group gives points of that group and the generator of `G2` is of
the order of the groups. -/
theorem C41_generate (pe : PointEnv E) (P : Pairing E) (h0 : E) (n : Nat) (w : World) (hP : P.order ≠ 0)
    (hord : (P.order : Int) • h0 = 0) (hpe : ∀ b, (pe.hashToPoint P.G1 b).grp = P.G1) :
    ∃ sk pk w', generateKeys pe P h0 n w = .ok ((sk, pk), w') ∧ KeyPair P sk pk ∧
      pk.generators.length = n + 2 ∧ 0 ≤ sk.gamma ∧ sk.gamma < P.order := by
  obtain ⟨ps, h1, h2, h3⟩ := C46_generators pe (n + 2) P.G1 256 42 w
  have hg : ∀ g ∈ ps, g.grp = P.G1 := by
    intro g hg
    obtain ⟨i, hi, rfl⟩ := List.mem_iff_getElem.mp hg
    obtain ⟨p, e1, e2⟩ := h3 i (by omega)
    rw [List.getElem?_eq_getElem hi] at e1
    injection e1 with e1
    rw [e1]
    simp only [getRandomPoint, pm_pure_iff, Prod.mk.injEq, and_true] at e2
    rw [← e2]
    exact hpe _
  obtain ⟨γ, w1, h4, _⟩ := draw_progress (m := P.G1.order) hP w
  obtain ⟨_, h6, h7, _⟩ := draw_ok h4
  unfold generateKeys
  rw [pm_bind_eq (w := w) h1, pm_bind_eq h4]
  simp only [mkPublicKey]
  rw [pairAll_ok (P := P) (h0 := ⟨P.G2, h0⟩) rfl ps hg]
  refine ⟨_, _, w1, rfl, ⟨⟨by simp [h2], hg, rfl, rfl, rfl⟩, rfl, rfl, hord, rfl⟩, h2, h6, h7⟩

/-- **C41** For every key pair, message list and randomness: whenever `commit()`, `sign()` and
`obtain_signature()` run through, with blinding or else without and with a new creator, the signature is accepted
by `verify_signature()` for the messages. -/
theorem C41_signatures_verify (P : Pairing E) (env : Env E) (sk : SecretKey E) (pk : PublicKey E)
    (hk : KeyPair P sk pk) (c c' : Creator E) (hpk : c.pk = pk) (ms : List Int) (zkp : Bool)
    (hs : zkp = true ∨ c.s1 = none) (next : Nat) (w w1 w2 w3 : World) (m : UserCommitment E) (p : Signature E)
    (hc : c.commit env ms zkp next w = .ok ((m, c'), w1)) (hp : sk.sign m.com w2 = .ok (p, w3)) :
    (c'.obtainSignature p).verify P pk ms = .ok true := by
  obtain ⟨g0, g1, gs, hg⟩ := gens_split hk.good
  obtain ⟨hA, heq⟩ := sign_sigEq hk hg hp
  have hobt : (c'.obtainSignature p).A = p.A ∧ (c'.obtainSignature p).e = p.e := by
    unfold Creator.obtainSignature
    cases c'.s1 <;> exact ⟨rfl, rfl⟩
  rw [verify_eq hk.good hg _ _ (by rw [hobt.1]; exact hA)]
  congr 1
  rw [decide_eq_true_iff, hobt.1, hobt.2, heq]
  congr 2
  rcases commit_ok (P := P) (by rw [hpk]; exact hg) (by rw [hpk]; exact hk.good.g1) hc with
    ⟨rfl, hm, _, rfl, _⟩ | ⟨rfl, s1, hm, _, rfl, _⟩
  · have hs1 := hs.resolve_left (by simp)
    rw [hm]
    simp [Creator.obtainSignature, hs1]
  · rw [hm]
    simp only [Creator.obtainSignature, add_smul]
    abel

theorem uniq_zip {α : Type} {σ : Store} : ∀ (vs : List Sec) (xs : List α), (vs.map σ.name).Nodup →
    Dict.Uniq σ (vs.zip xs)
  | [], _, _ => trivial
  | _ :: _, [], _ => trivial
  | v :: vs, x :: xs, h => by
    simp only [List.map_cons, List.nodup_cons] at h
    refine ⟨?_, uniq_zip vs xs h.2⟩
    refine DLRep.get?_none_of_keys fun y hy => ?_
    obtain ⟨⟨a, b⟩, hab, rfl⟩ := List.mem_map.mp hy
    intro he
    exact h.1 (List.mem_map.mpr ⟨a, (List.of_mem_zip hab).1, congrArg Prod.fst he⟩)

theorem get?_zip {α : Type} {σ : Store} : ∀ (vs : List Sec) (xs : List α), (vs.map σ.name).Nodup →
    ∀ (i : Nat) (v : Sec) (x : α), vs[i]? = some v → xs[i]? = some x → Dict.get? σ (vs.zip xs) v = some x
  | [], _, _, i, v, x, hv, _ => by simp at hv
  | _ :: _, [], _, i, v, x, _, hx => by simp at hx
  | u :: vs, y :: xs, h, i, v, x, hv, hx => by
    simp only [List.map_cons, List.nodup_cons] at h
    simp only [List.zip_cons_cons, Dict.get?]
    cases i with
    | zero =>
      simp only [List.getElem?_cons_zero, Option.some.injEq] at hv hx
      rw [hv, hx, if_pos rfl]
    | succ i =>
      simp only [List.getElem?_cons_succ] at hv hx
      rw [if_neg, get?_zip vs xs h.2 i v x hv hx]
      intro he
      exact h.1 (List.mem_map.mpr ⟨v, List.mem_of_getElem? hv, (congrArg Prod.fst he).symm⟩)

/-- **C41** With a working key, and messages for which there are enough generators, `commit()` succeeds for
every randomness.  The names of new secrets are drawn from 2^128 possibilities; they are assumed to be pairwise
different.  A blinded commitment is accepted by `verify_blinding()`, in every process. -/
theorem C41_commit_succeeds (P : Pairing E) (env : Env E) (pk : PublicKey E) (hk : GoodKey P pk)
    (hord : P.order ≠ 0) (htor : ∀ g ∈ pk.generators, (P.order : Int) • g.val = 0) (c : Creator E)
    (hpk : c.pk = pk) (ms : List Int) (hfit : ms.length + 2 ≤ pk.generators.length) (zkp : Bool) (next : Nat)
    (w : World) (hfresh : ((freshSecs next (ms.length + 1)).map w.store.name).Nodup) :
    ∃ m c' w', c.commit env ms zkp next w = .ok ((m, c'), w') ∧ w'.store = w.store ∧
      (zkp = true → ∀ (σv : Store) (nextv : Nat), ((freshSecs nextv (ms.length + 1)).map σv.name).Nodup →
        m.verifyBlinding env σv pk nextv = .ok true) := by
  obtain ⟨g0, g1, gs, hg⟩ := gens_split hk
  have hgr := hk.g1
  have hlen : ms.length ≤ gs.length := by rw [hg] at hfit; simpa using hfit
  have htor' := htor
  rw [hg] at hgr htor
  have h0 := hgr g0 (by simp)
  have h1 := hgr g1 (by simp)
  subst hpk
  unfold Creator.commit
  have e0 : listAt c.pk.generators 0 = .ok g0 := by rw [listAt_ok, hg]; rfl
  have e1 : listAt c.pk.generators 1 = .ok g1 := by rw [listAt_ok, hg]; rfl
  have e2 : (c.pk.generators.drop 2).take ms.length = gs.take ms.length := by rw [hg]; rfl
  have e3 : g0.grp.wsum (ms.map .int) (gs.take ms.length) = .ok ⟨P.G1, lin ms gs⟩ := by
    rw [h0, wsum_lin rfl _ _ (fun p hp => hgr p (by simp [List.mem_of_mem_take hp])), lin_take _ _ _ le_rfl]
  have e4 : (c.pk.generators.drop 1).take (ms.length + 1) = g1 :: gs.take ms.length := by rw [hg]; rfl
  rw [e0, e2]
  simp only [pm_liftE_bind]
  rw [e3]
  simp only [pm_liftE_bind]
  cases zkp with
  | false => exact ⟨_, _, _, rfl, rfl, by simp⟩
  | true =>
    obtain ⟨s1, w1, hd, hst⟩ := draw_progress (m := g0.grp.order) (by rw [h0]; exact hord) w
    simp only
    rw [pm_bind_eq hd, e1]
    simp only [pm_liftE_bind]
    rw [pt_add_of (by rw [Pt.smul, h1])]
    simp only [pm_liftE_bind]
    rw [pm_getStore_bind, e4]
    have hbase : ∀ b ∈ g1 :: gs.take ms.length, b.grp = P.G1 ∧ (P.order : Int) • b.val = 0 := by
      intro b hb
      have : b ∈ g0 :: g1 :: gs := by
        rcases List.mem_cons.mp hb with rfl | hb
        · simp
        · simp [List.mem_of_mem_take hb]
      exact ⟨hgr b this, htor b this⟩
    have hl : (freshSecs next (ms.length + 1)).length = (g1 :: gs.take ms.length).length := by
      simp [freshSecs, hlen]
    rw [repOf_of (g := P.G1) hl (by simp) fun b hb => (hbase b hb).1]
    simp only [pm_liftE_bind]
    rw [← hst] at hfresh
    generalize hvs : freshSecs next (ms.length + 1) = vs at *
    have hvl : vs.length = ms.length + 1 := by rw [← hvs]; simp [freshSecs]
    have hget : ∀ (i : Nat) (v : Sec), vs[i]? = some v →
        ∃ x, (s1 :: ms)[i]? = some x ∧ Dict.get? w1.store (vs.zip (s1 :: ms)) v = some x := by
      intro i v hv
      have hi : i < (s1 :: ms).length := by
        have := (List.getElem?_eq_some_iff.mp hv).1
        simp only [List.length_cons]; omega
      exact ⟨_, List.getElem?_eq_getElem hi, get?_zip vs (s1 :: ms) hfresh i v _ hv (List.getElem?_eq_getElem hi)⟩
    obtain ⟨nizk, t', w2, hpr, hw2, _, _, hver⟩ := C13_dlrep_complete env
      (⟨⟨P.G1, s1 • g1.val + lin ms gs⟩, g1 :: gs.take ms.length, vs, knownValues w1.store vs [], false⟩ : DLRep E)
      (vs.zip (s1 :: ms)) w1 "" (Dict.fn w1.store 0 (vs.zip (s1 :: ms))) hl (by simp)
      (fun b hb => (hbase b hb).1) hord (fun b hb => (hbase b hb).2) (uniq_zip _ _ hfresh)
      (by
        intro x hx
        obtain ⟨i, hi⟩ := List.getElem?_of_mem hx
        obtain ⟨y, _, hy⟩ := hget i x hi
        rw [given, hy, Dict.get?_fn (dflt := 0) hy]
        rfl)
      (by
        have : List.zipWith (fun x b => Dict.fn w1.store 0 (vs.zip (s1 :: ms)) (w1.store.key x) • b.val) vs
            (g1 :: gs.take ms.length) = List.zipWith (fun n b => n • b.val) (s1 :: ms) (g1 :: gs.take ms.length) := by
          refine List.ext_getElem? fun i => ?_
          rw [List.getElem?_zipWith, List.getElem?_zipWith]
          cases hv : vs[i]? with
          | none =>
            rw [List.getElem?_eq_none_iff] at hv
            rw [List.getElem?_eq_none (l := s1 :: ms) (by simp only [List.length_cons]; omega)]
          | some v =>
            obtain ⟨x, hx, hy⟩ := hget i v hv
            rw [hx]
            cases (g1 :: gs.take ms.length)[i]? with
            | none => rfl
            | some b => simp only [Option.some.injEq]; rw [← Dict.get?_fn (dflt := 0) hy]
        rw [this]
        simp only [List.zipWith_cons_cons, List.sum_cons]
        rw [← lin_take ms gs ms.length le_rfl]
        rfl)
    have hcom : ({ grp := (Pt.smul s1 g1).grp, val := (Pt.smul s1 g1).val + lin ms gs } : Pt E) =
        ⟨P.G1, s1 • g1.val + lin ms gs⟩ := by simp [Pt.smul, h1]
    rw [hcom, pm_bind_eq hpr]
    refine ⟨_, _, w2, rfl, hw2.trans hst, fun _ σv nextv hfv => ?_⟩
    unfold UserCommitment.verifyBlinding
    simp only
    obtain ⟨rs, hrs, hrl⟩ := prove_rep_responses hpr
    have hn : nizk.responses.len = .ok (ms.length + 1) := by
      rw [hrs]; simp [Val.len, hrl, hvl]
    rw [hn]
    simp only [bind_ok]
    have hlv : (freshSecs nextv (ms.length + 1)).length = (g1 :: gs.take ms.length).length := by
      simp [freshSecs, hlen]
    rw [e4, repOf_of (g := P.G1) hlv (by simp) fun b hb => (hbase b hb).1]
    simp only [bind_ok]
    refine hver σv _ rfl rfl ⟨⟨by simp [hvl, freshSecs], ?_⟩, ?_⟩
    · intro i j a b a' b' h1 h2 h3 h4
      have k1 := List.getElem?_eq_some_iff.mp h1
      have k2 := List.getElem?_eq_some_iff.mp h2
      have k3 := List.getElem?_eq_some_iff.mp h3
      have k4 := List.getElem?_eq_some_iff.mp h4
      rw [← k1.2, ← k2.2, ← k3.2, ← k4.2, hfresh.getElem_inj_iff, hfv.getElem_inj_iff]
    · intro i j x y xv yv h1 h2 h3 h4 h
      have k3 := List.getElem?_eq_some_iff.mp (by simpa using congrArg (Option.map σv.name) h3 :
        ((freshSecs nextv (ms.length + 1)).map σv.name)[i]? = some (σv.name xv))
      have k4 := List.getElem?_eq_some_iff.mp (by simpa using congrArg (Option.map σv.name) h4 :
        ((freshSecs nextv (ms.length + 1)).map σv.name)[j]? = some (σv.name yv))
      have : i = j := by
        rw [← hfv.getElem_inj_iff (hi := k3.1) (hj := k4.1), k3.2, k4.2]
        exact congrArg Prod.fst h
      subst this
      rw [h1] at h2
      injection h2 with h2
      rw [h2]

/-- **C41** With a key pair and a commitment in `G1`, `sign()` succeeds exactly if `γ + e` is invertible modulo the
order, `e` being the first random number. -/
theorem C41_sign_succeeds_iff (P : Pairing E) (sk : SecretKey E) (pk : PublicKey E) (hk : KeyPair P sk pk)
    (hord : P.order ≠ 0) (lhs : Pt E) (hl : lhs.grp = P.G1) (w : World) :
    (∃ p w', sk.sign lhs w = .ok (p, w')) ↔ Int.gcd (sk.gamma + (w.rng 0 % P.order : Nat)) P.order = 1 := by
  obtain ⟨g0, g1, gs, hg⟩ := gens_split hk.good
  have hgr := hk.good.g1
  rw [hg] at hgr
  have h0 := hgr g0 (by simp)
  have h1 := hgr g1 (by simp)
  have ho : sk.h0.grp.order = P.order := by rw [hk.h0, hk.good.h0]; rfl
  unfold SecretKey.sign
  rw [ho]
  have d1 : draw P.order w = .ok (((w.rng 0 % P.order : Nat) : Int), { w with rng := fun i => w.rng (i + 1) }) := by
    unfold draw; rw [if_neg hord]
  rw [pm_bind_eq d1]
  obtain ⟨s2, w2, d2, _⟩ := draw_progress hord ({ w with rng := fun i => w.rng (i + 1) } : World)
  rw [pm_bind_eq d2]
  have e0 : listAt sk.generators 0 = .ok g0 := by rw [listAt_ok, hk.gens, hg]; rfl
  have e1 : listAt sk.generators 1 = .ok g1 := by rw [listAt_ok, hk.gens, hg]; rfl
  rw [e0]
  simp only [pm_liftE_bind]
  rw [e1]
  simp only [pm_liftE_bind]
  rw [pt_add_of (by rw [h0, Pt.smul, h1])]
  simp only [pm_liftE_bind]
  rw [pt_add_of (by rw [hl]; exact h0)]
  simp only [pm_liftE_bind]
  constructor
  · rintro ⟨p, w', h⟩
    obtain ⟨i, h, _⟩ := pm_liftE_bind_iff.mp h
    unfold modInverse at h
    by_contra hne
    rw [if_neg hne] at h
    cases h
  · intro h
    unfold modInverse
    rw [if_pos h]
    exact ⟨_, _, rfl⟩

/-- Secrets with pairwise different names and no values. -/
def exNames : Store where
  name s := String.ofList (List.replicate s 'x')
  value _ := none

/-- The pairing `e(a, b) = a·b` of the field with seven elements. -/
def exPairing : Pairing (ZMod 7) := ⟨0, 7, AddMonoidHom.mul⟩

/-- A public key with `γ = 2`, `h0 = 1` and the generators 1, 3, 2, 5. -/
def exPk : PublicKey (ZMod 7) :=
  ⟨⟨exPairing.G2, 2⟩, ⟨exPairing.G2, 1⟩, [⟨exPairing.G1, 1⟩, ⟨exPairing.G1, 3⟩, ⟨exPairing.G1, 2⟩, ⟨exPairing.G1, 5⟩],
    [⟨exPairing.GT, 1⟩, ⟨exPairing.GT, 3⟩, ⟨exPairing.GT, 2⟩, ⟨exPairing.GT, 5⟩]⟩

/-- Its secret key. -/
def exSk : SecretKey (ZMod 7) := ⟨exPk.h0, 2, exPk.generators⟩

theorem exKey : KeyPair exPairing exSk exPk :=
  ⟨⟨by decide, by decide, rfl, rfl, by decide⟩, rfl, rfl, by decide, by decide⟩

/-- `generate()` with a toy hash function. -/
example : ∃ sk pk w', generateKeys exPointEnv exPairing (1 : ZMod 7) 2 ⟨Ex.σ, fun i => i⟩ = .ok ((sk, pk), w') ∧
    KeyPair exPairing sk pk := by
  obtain ⟨sk, pk, w', h1, h2, _⟩ := C41_generate exPointEnv exPairing (1 : ZMod 7) 2 ⟨Ex.σ, fun i => i⟩
    (by decide) (by decide) (fun _ => rfl)
  exact ⟨sk, pk, w', h1, h2⟩

/-- The messages 4, 6 with blinding: commitment, signature, and its check. -/
example : ∃ m c' w1 p w2, (Creator.new exPk).commit (Ex.env 5) [4, 6] true 0 ⟨exNames, fun i => i + 1⟩ = .ok ((m, c'), w1) ∧
    m.verifyBlinding (Ex.env 5) exNames exPk 10 = .ok true ∧
    exSk.sign m.com ⟨exNames, fun i => i + 3⟩ = .ok (p, w2) ∧
    (c'.obtainSignature p).verify exPairing exPk [4, 6] = .ok true := by
  obtain ⟨m, c', w1, h1, h2, h3⟩ := C41_commit_succeeds exPairing (Ex.env 5) exPk exKey.good (by decide) (by decide)
    (Creator.new exPk) rfl [4, 6] (by decide) true 0 ⟨exNames, fun i => i + 1⟩ (by decide)
  have hl : m.com.grp = exPairing.G1 := by
    rcases commit_ok (P := exPairing) rfl exKey.good.g1 h1 with ⟨h, _⟩ | ⟨_, s1, h, _⟩
    · cases h
    · rw [h]
  obtain ⟨p, w2, h4⟩ := (C41_sign_succeeds_iff exPairing exSk exPk exKey (by decide) m.com hl
    ⟨exNames, fun i => i + 3⟩).mpr (by decide)
  exact ⟨m, c', w1, p, w2, h1, h3 rfl exNames 10 (by decide), h4,
    C41_signatures_verify exPairing (Ex.env 5) exSk exPk exKey _ c' rfl [4, 6] true (.inl rfl) 0 _ _ _ _ m p h1 h4⟩

/-! ### C42 -/

/-- **C42** is violated: if there are no generators for them, further messages do not matter at all. -/
theorem C42_extra_messages_ignored (P : Pairing E) (pk : PublicKey E) (hk : GoodKey P pk) (sig : Signature E)
    (ms extra : List Int) (h : pk.generators.length ≤ ms.length + 2) :
    sig.verify P pk (ms ++ extra) = .ok true ↔ sig.verify P pk ms = .ok true := by
  obtain ⟨g0, g1, gs, hg⟩ := gens_split hk
  have hl : lin (ms ++ extra) gs = lin ms gs := lin_append _ _ _ (by rw [hg] at h; simpa using h)
  constructor <;> intro hv <;> have hA := verify_G1 hv <;> rw [verify_eq hk hg _ _ hA] at hv ⊢
  · rwa [hl] at hv
  · rwa [hl]

/-- **C42** is violated also when there are enough generators: zeros can be appended. -/
theorem C42_zeros_ignored (P : Pairing E) (pk : PublicKey E) (hk : GoodKey P pk) (sig : Signature E)
    (ms : List Int) (n : Nat) :
    sig.verify P pk (ms ++ List.replicate n 0) = .ok true ↔ sig.verify P pk ms = .ok true := by
  obtain ⟨g0, g1, gs, hg⟩ := gens_split hk
  constructor <;> intro hv <;> have hA := verify_G1 hv <;> rw [verify_eq hk hg _ _ hA] at hv ⊢
  · rwa [lin_zeros] at hv
  · rwa [lin_zeros]

/-- A signature on the messages 4, 6 under `exPk`. -/
def exSig : Signature (ZMod 7) := ⟨⟨exPairing.G1, 1⟩, 1, 2⟩

/-- **C42** A signature that is accepted for `[4, 6]`, for `[4, 6, 100, -3]`, and for `[4, 6, 0]`. -/
theorem C42_violated : ∃ (P : Pairing (ZMod 7)) (sk : SecretKey (ZMod 7)) (pk : PublicKey (ZMod 7))
    (sig : Signature (ZMod 7)), KeyPair P sk pk ∧ sig.verify P pk [4, 6] = .ok true ∧
      sig.verify P pk [4, 6, 100, -3] = .ok true ∧ sig.verify P pk [4, 6, 0] = .ok true := by
  have h : exSig.verify exPairing exPk [4, 6] = .ok true := by decide
  exact ⟨exPairing, exSk, exPk, exSig, exKey, h,
    (C42_extra_messages_ignored _ _ exKey.good exSig [4, 6] [100, -3] (by decide)).mpr h,
    (C42_zeros_ignored _ _ exKey.good exSig [4, 6] 1).mpr h⟩

/-- **C42** A signature accepted for one list of messages is accepted for another one exactly if the weighted sums
of the generators agree under the pairing. -/
theorem C42_second_list (P : Pairing E) (pk : PublicKey E) (hk : GoodKey P pk) (sig : Signature E)
    (ms ms' : List Int) (h : sig.verify P pk ms = .ok true) :
    sig.verify P pk ms' = .ok true ↔
      P.e (lin ms (pk.generators.drop 2)) pk.h0.val = P.e (lin ms' (pk.generators.drop 2)) pk.h0.val := by
  obtain ⟨g0, g1, gs, hg⟩ := gens_split hk
  have hA := verify_G1 h
  rw [verify_eq hk hg _ _ hA] at h ⊢
  have h1 := of_decide_eq_true (Except.ok.inj h)
  rw [hg]
  simp only [List.drop_succ_cons, List.drop_zero]
  rw [map_add P.e, AddMonoidHom.add_apply] at h1
  constructor
  · intro h
    have h2 := of_decide_eq_true (Except.ok.inj h)
    rw [h1, map_add P.e _ (lin ms' gs), AddMonoidHom.add_apply] at h2
    exact add_left_cancel h2
  · intro h2
    congr 1
    rw [decide_eq_true_iff, h1, map_add P.e _ (lin ms' gs), AddMonoidHom.add_apply, h2]

/-- **C42** What does hold.  If the generators for the messages are independent under the pairing with `h0`, two
lists of messages accepted with the same signature, neither longer than there are generators, agree modulo the
order, up to zeros at the end.  Missing: lists longer than the generators allow, and zeros at the end
(`C42_violated`). -/
theorem C42_messages_bound_partial (P : Pairing E) (pk : PublicKey E) (hk : GoodKey P pk) (sig : Signature E)
    (ms ms' : List Int)
    (hind : ∀ cs : List Int, cs.length + 2 = pk.generators.length →
      P.e (lin cs (pk.generators.drop 2)) pk.h0.val = 0 → ∀ c ∈ cs, (P.order : Int) ∣ c)
    (hl : ms.length + 2 ≤ pk.generators.length) (hl' : ms'.length + 2 ≤ pk.generators.length)
    (h : sig.verify P pk ms = .ok true) (h' : sig.verify P pk ms' = .ok true) (i : Nat) :
    (P.order : Int) ∣ ms.getD i 0 - ms'.getD i 0 := by
  have h1 := (C42_second_list P pk hk sig ms ms' h).mp h'
  have h2 : P.e (lin ms (pk.generators.drop 2) - lin ms' (pk.generators.drop 2)) pk.h0.val = 0 := by
    rw [map_sub, AddMonoidHom.sub_apply, h1, sub_self]
  rw [lin_sub] at h2
  have hlen := hk.len
  by_cases hi : i < (pk.generators.drop 2).length
  · refine hind _ ?_ h2 _ (List.mem_map.mpr ⟨i, List.mem_range.mpr hi, rfl⟩)
    simp only [List.length_map, List.length_range, List.length_drop]
    omega
  · simp only [List.length_drop] at hi
    rw [List.getD_eq_default _ _ (by omega), List.getD_eq_default _ _ (by omega)]
    simp

/-- Componentwise multiplication in `(ℤ/7ℤ)³` as a pairing. -/
def exPairing3 : Pairing (ZMod 7 × ZMod 7 × ZMod 7) := ⟨0, 7, AddMonoidHom.mul⟩

/-- A public key with `h0 = (1,1,1)`, `γ = 2`, and generators for two messages that are independent. -/
def exPk3 : PublicKey (ZMod 7 × ZMod 7 × ZMod 7) :=
  ⟨⟨exPairing3.G2, (2, 2, 2)⟩, ⟨exPairing3.G2, (1, 1, 1)⟩,
    [⟨exPairing3.G1, (1, 0, 0)⟩, ⟨exPairing3.G1, (3, 0, 0)⟩, ⟨exPairing3.G1, (0, 1, 0)⟩, ⟨exPairing3.G1, (0, 0, 1)⟩],
    [⟨exPairing3.GT, (1, 0, 0)⟩, ⟨exPairing3.GT, (3, 0, 0)⟩, ⟨exPairing3.GT, (0, 1, 0)⟩, ⟨exPairing3.GT, (0, 0, 1)⟩]⟩

/-- The signature with `e = 1`, `s = 2` on 4, 6: `A = (γ + e)⁻¹ (1 + 2·3, 4, 6)`. -/
example : GoodKey exPairing3 exPk3 ∧
    (⟨⟨exPairing3.G1, (0, 6, 2)⟩, 1, 2⟩ : Signature _).verify exPairing3 exPk3 [4, 6] = .ok true ∧
    (⟨⟨exPairing3.G1, (0, 6, 2)⟩, 1, 2⟩ : Signature _).verify exPairing3 exPk3 [11, -1] = .ok true ∧
    ∀ cs : List Int, cs.length + 2 = exPk3.generators.length →
      exPairing3.e (lin cs (exPk3.generators.drop 2)) exPk3.h0.val = 0 → ∀ c ∈ cs, (exPairing3.order : Int) ∣ c := by
  refine ⟨⟨by decide, by decide, rfl, rfl, by decide⟩, by decide, by decide, fun cs hcs h => ?_⟩
  match cs, hcs with
  | [a, b], _ =>
    simp only [lin, exPk3, exPairing3, List.drop_succ_cons, List.drop_zero, List.zipWith_cons_cons,
      List.zipWith_nil_right, List.sum_cons, List.sum_nil, add_zero, AddMonoidHom.mul_apply, Prod.ext_iff,
      Prod.fst_mul, Prod.snd_mul, Prod.fst_add, Prod.snd_add, Prod.smul_fst, Prod.smul_snd, smul_zero,
      Prod.fst_zero, Prod.snd_zero, zero_add, mul_one] at h
    simp only [zsmul_eq_mul, mul_one] at h
    intro c hc
    simp only [List.mem_cons, List.not_mem_nil, or_false] at hc
    rcases hc with rfl | rfl
    · exact (ZMod.intCast_zmod_eq_zero_iff_dvd _ 7).mp h.2.1
    · exact (ZMod.intCast_zmod_eq_zero_iff_dvd _ 7).mp h.2.2

/-! ### C43 -/

private theorem after_pk {env : Env E} {c c' : Creator E} {calls : List (List Int × Bool)} (P : Pairing E)
    (hk : GoodKey P c.pk) (h : After env c calls c') :
    c'.pk = c.pk ∧ ((∀ call ∈ calls, call.2 = false) → c'.s1 = c.s1) := by
  induction h with
  | none => exact ⟨rfl, fun _ => rfl⟩
  | call c1 c2 calls ms zkp next w w' m _ hc ih =>
    obtain ⟨h1, h2⟩ := ih
    obtain ⟨g0, g1, gs, hg⟩ := gens_split hk
    rcases commit_ok (P := P) (by rw [h1]; exact hg) (by rw [h1]; exact hk.g1) hc with
      ⟨rfl, _, _, rfl, _⟩ | ⟨rfl, s1, _, _, rfl, _⟩
    · exact ⟨h1, fun h => h2 fun call hm => h call (by simp [hm])⟩
    · refine ⟨h1, fun h => ?_⟩
      have := h (ms, true) (by simp)
      cases this

/-- **C43** is violated: after a blinded commitment, an unblinded one on the same creator leads to an invalid
signature, unless the blinding factor, i.e. the first random number drawn by the blinded `commit()`, happens to
annihilate the pairing of the second generator and `h0`. -/
theorem C43_violated (P : Pairing E) (env : Env E) (sk : SecretKey E) (pk : PublicKey E)
    (hk : KeyPair P sk pk) (g1 : Pt E) (hg1 : pk.generators[1]? = some g1) (c c' c'' : Creator E) (hpk : c.pk = pk)
    (ms ms' : List Int) (next next' : Nat) (w w' w1 w1' w2 w3 : World) (m m' : UserCommitment E) (p : Signature E)
    (hc : c.commit env ms true next w = .ok ((m, c'), w'))
    (hc' : c'.commit env ms' false next' w1 = .ok ((m', c''), w1')) (hp : sk.sign m'.com w2 = .ok (p, w3)) :
    (c''.obtainSignature p).verify P pk ms' = .ok true ↔
      ((w.rng 0 % P.order : Nat) : Int) • P.e g1.val pk.h0.val = 0 := by
  obtain ⟨g0, g1', gs, hg⟩ := gens_split hk.good
  have : g1' = g1 := by rw [hg] at hg1; simpa using hg1
  subst this
  obtain ⟨hA, heq⟩ := sign_sigEq hk hg hp
  rcases commit_ok (P := P) (by rw [hpk]; exact hg) (by rw [hpk]; exact hk.good.g1) hc with
    ⟨h, _⟩ | ⟨_, s1, hm, _, rfl, hs1⟩
  · cases h
  rcases commit_ok (P := P) (by simpa [hpk] using hg) (by simpa [hpk] using hk.good.g1) hc' with
    ⟨_, hm', _, rfl, _⟩ | ⟨h, _⟩
  · rw [verify_eq hk.good hg (Creator.obtainSignature ⟨c.pk, some s1⟩ p) ms' hA]
    rw [Except.ok.injEq, decide_eq_true_iff]
    simp only [Creator.obtainSignature]
    rw [heq, hm', ← hs1, add_smul]
    have : g0.val + (p.s • g1'.val + s1 • g1'.val) + lin ms' gs =
      (g0.val + p.s • g1'.val + lin ms' gs) + s1 • g1'.val := by abel
    rw [this, map_add P.e _ (s1 • g1'.val), AddMonoidHom.add_apply, map_zsmul P.e, AddMonoidHom.smul_apply]
    simp only [left_eq_add]
  · cases h

/-- With `exPk` and blinding factor 1, the unblinded signature on `[5]` after a blinded commitment to `[4, 6]` is
rejected. -/
example : ∃ m c' w' m' c'' w1' p w3,
    (Creator.new exPk).commit (Ex.env 5) [4, 6] true 0 ⟨exNames, fun i => i + 1⟩ = .ok ((m, c'), w') ∧
    c'.commit (Ex.env 5) [5] false 3 w' = .ok ((m', c''), w1') ∧
    exSk.sign m'.com ⟨exNames, fun i => i + 3⟩ = .ok (p, w3) ∧
    (c''.obtainSignature p).verify exPairing exPk [5] ≠ .ok true := by
  obtain ⟨m, c', w1, h1, h2, h3⟩ := C41_commit_succeeds exPairing (Ex.env 5) exPk exKey.good (by decide) (by decide)
    (Creator.new exPk) rfl [4, 6] (by decide) true 0 ⟨exNames, fun i => i + 1⟩ (by decide)
  have hpk : c'.pk = exPk := by
    rcases commit_ok (P := exPairing) rfl exKey.good.g1 h1 with ⟨h, _⟩ | ⟨_, s1, h, _, rfl, _⟩
    · cases h
    · rfl
  obtain ⟨m', c'', w1', h4, _⟩ := C41_commit_succeeds exPairing (Ex.env 5) exPk exKey.good (by decide) (by decide)
    c' hpk [5] (by decide) false 3 w1 (by rw [h2]; decide)
  have hl : m'.com.grp = exPairing.G1 := by
    rcases commit_ok (P := exPairing) (by rw [hpk]; rfl) (by rw [hpk]; exact exKey.good.g1) h4 with ⟨_, h, _⟩ | ⟨h, _⟩
    · rw [h]
    · cases h
  obtain ⟨p, w3, h5⟩ := (C41_sign_succeeds_iff exPairing exSk exPk exKey (by decide) m'.com hl
    ⟨exNames, fun i => i + 3⟩).mpr (by decide)
  refine ⟨m, c', w1, m', c'', w1', p, w3, h1, h4, h5, fun h => ?_⟩
  have := (C43_violated exPairing (Ex.env 5) exSk exPk exKey ⟨exPairing.G1, 3⟩ rfl _ c' c'' rfl [4, 6] [5] 0 3 _ _ _ _ _ _
    m m' p h1 h4 h5).mp h
  revert this
  decide

/-- **C43** What does hold: after any history of `commit()` calls on a creator, a run whose commitment is blinded,
or with no blinded commitment before it, leads to a signature that is accepted for the messages of the last
commitment.  Missing: unblinded commitments after blinded ones (`C43_violated`). -/
theorem C43_reuse_partial (P : Pairing E) (env : Env E) (sk : SecretKey E) (pk : PublicKey E)
    (hk : KeyPair P sk pk) (calls : List (List Int × Bool)) (c c' : Creator E)
    (hh : After env (Creator.new pk) calls c) (ms : List Int) (zkp : Bool)
    (hz : zkp = true ∨ ∀ call ∈ calls, call.2 = false) (next : Nat) (w w1 w2 w3 : World)
    (m : UserCommitment E) (p : Signature E) (hc : c.commit env ms zkp next w = .ok ((m, c'), w1))
    (hp : sk.sign m.com w2 = .ok (p, w3)) : (c'.obtainSignature p).verify P pk ms = .ok true := by
  obtain ⟨h1, h2⟩ := after_pk P hk.good hh
  exact C41_signatures_verify P env sk pk hk c c' h1 ms zkp (hz.imp id h2) next w w1 w2 w3 m p hc hp

/-- Three commitments with the same creator: unblinded, blinded, blinded. -/
example : ∃ c1 c2 m3 c3 w3 p w4, After (Ex.env 5) (Creator.new exPk) [([4], false)] c1 ∧
    After (Ex.env 5) (Creator.new exPk) [([4], false), ([4, 6], true)] c2 ∧
    c2.commit (Ex.env 5) [1, 2] true 6 ⟨exNames, fun i => i + 2⟩ = .ok ((m3, c3), w3) ∧
    exSk.sign m3.com ⟨exNames, fun i => i + 3⟩ = .ok (p, w4) ∧
    (c3.obtainSignature p).verify exPairing exPk [1, 2] = .ok true := by
  obtain ⟨m1, c1, w1, h1, e1, _⟩ := C41_commit_succeeds exPairing (Ex.env 5) exPk exKey.good (by decide) (by decide)
    (Creator.new exPk) rfl [4] (by decide) false 0 ⟨exNames, fun i => i + 1⟩ (by decide)
  have a1 : After (Ex.env 5) (Creator.new exPk) [([4], false)] c1 := .call _ _ _ [] _ _ _ _ _ _ (.none _) h1
  obtain ⟨m2, c2, w2, h2, e2, _⟩ := C41_commit_succeeds exPairing (Ex.env 5) exPk exKey.good (by decide) (by decide)
    c1 (after_pk exPairing exKey.good a1).1 [4, 6] (by decide) true 3 ⟨exNames, fun i => i + 1⟩ (by decide)
  have a2 : After (Ex.env 5) (Creator.new exPk) [([4], false), ([4, 6], true)] c2 :=
    .call _ _ _ [([4], false)] _ _ _ _ _ _ a1 h2
  obtain ⟨m3, c3, w3, h3, e3, _⟩ := C41_commit_succeeds exPairing (Ex.env 5) exPk exKey.good (by decide) (by decide)
    c2 (after_pk exPairing exKey.good a2).1 [1, 2] (by decide) true 6 ⟨exNames, fun i => i + 2⟩ (by decide)
  have hl : m3.com.grp = exPairing.G1 := by
    have hpk : c2.pk = exPk := (after_pk exPairing exKey.good a2).1
    rcases commit_ok (P := exPairing) (by rw [hpk]; rfl) (by rw [hpk]; exact exKey.good.g1) h3 with ⟨h, _⟩ | ⟨_, _, h, _⟩
    · cases h
    · rw [h]
  obtain ⟨p, w4, h4⟩ := (C41_sign_succeeds_iff exPairing exSk exPk exKey (by decide) m3.com hl
    ⟨exNames, fun i => i + 3⟩).mpr (by decide)
  exact ⟨c1, c2, m3, c3, w3, p, w4, a1, a2, h3, h4,
    C43_reuse_partial exPairing (Ex.env 5) exSk exPk exKey _ c2 c3 a2 [1, 2] true (.inl rfl) 6 _ _ _ _ m3 p h3 h4⟩

end Zksk.Props
