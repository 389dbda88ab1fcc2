import Verif.Props.Fork
import Verif.Props.BlindIssue

/-! # C70: whoever is issued a blind signature knows the messages that are signed -/

set_option linter.unusedSectionVars false

namespace Zksk.Props

open Spec

variable {E : Type} [AddCommGroup E] [DecidableEq E]

/-- **C70** A commitment without proof never gets a verdict. -/
theorem C70_no_proof (env : Env E) (σ : Store) (pk : PublicKey E) (com : Pt E) (next : Nat) :
    (⟨com, none⟩ : UserCommitment E).verifyBlinding env σ pk next = .error .valueError := rfl

/-- **C70** Soundness of blind issuance.  Let `s` be the statement that `verify_blinding()` makes from the commitment
`com` and a proof with `n` responses.  Whoever, having asked the hash function for `q`, can make proofs that
`verify_blinding()` accepts with the answer of `sha` and with that of `sha'`, knows a number `s1` and `n - 1` messages
such that `com` is the blinded commitment to these; and every signature that the issuer makes on `com` becomes, by
adding `s1` as `obtain_signature()` does, a signature on these messages that `verify_signature()` accepts. -/
theorem C70_extraction (P : Pairing E) (sk : SecretKey E) (pk : PublicKey E) (hk : KeyPair P sk pk)
    (htor : ∀ g ∈ pk.generators, (P.order : Int) • g.val = 0) (env : Env E) (henv : Readable env)
    (sha' : List UInt8 → List UInt8) (σ : Store) (next : Nat) (com : Pt E) (hcom : (P.order : Int) • com.val = 0)
    (n : Nat) (s : DLRep E) (hs : repOf σ com (freshSecs next n) ((pk.generators.drop 1).take n) = .ok s)
    (nizk nizk' : NIZK E) (hn : nizk.responses.len = .ok n) (hn' : nizk'.responses.len = .ok n)
    (hv : ∀ b, nizk.precommitment ≠ .bytes b) (hv' : ∀ b, nizk'.precommitment ≠ .bytes b)
    (h : (⟨com, some nizk⟩ : UserCommitment E).verifyBlinding env σ pk next = .ok true)
    (h' : (⟨com, some nizk'⟩ : UserCommitment E).verifyBlinding (rehash env sha') σ pk next = .ok true)
    (q : List UInt8) (hq : asked env σ (.leaf s : Core E) nizk "" = .ok q)
    (hq' : asked env σ (.leaf s : Core E) nizk' "" = .ok q) (u : Int)
    (hu : u * (env.toInt (env.sha q) - env.toInt (sha' q)) % P.order = 1 % P.order) :
    ∃ (g1 : Pt E) (s1 : Int) (ms : List Int), pk.generators[1]? = some g1 ∧ ms.length + 1 = n ∧
      ms.length + 2 ≤ pk.generators.length ∧
      com = ⟨P.G1, s1 • g1.val + lin ms (pk.generators.drop 2)⟩ ∧
      ∀ (w w' : World) (p : Signature E), sk.sign com w = .ok (p, w') →
        (⟨p.A, p.e, p.s + s1⟩ : Signature E).verify P pk ms = .ok true := by
  obtain ⟨g0, g1, gs, hg⟩ := gens_split hk.good
  have hgr := hk.good.g1
  unfold UserCommitment.verifyBlinding at h h'
  simp only [hn, hn', bind_ok, hs] at h h'
  unfold repOf at hs
  split at hs
  · cases hs
  rename_i hl
  have hl : (freshSecs next n).length = ((pk.generators.drop 1).take n).length := not_not.mp hl
  obtain ⟨rfl, hne, _⟩ := mkDLRep_ok hs
  have hd : pk.generators.drop 1 = g1 :: gs := by rw [hg]; rfl
  have hd2 : pk.generators.drop 2 = gs := by rw [hg]; rfl
  rw [hd] at hl hne h h' hq hq'
  match n, hl, hne with
  | 0, _, hne => simp at hne
  | n + 1, hl, _ =>
  rw [hg] at htor hgr
  have hlen : n ≤ gs.length := by
    simp only [freshSecs, List.length_map, List.length_range, List.take_succ_cons, List.length_cons, List.length_take] at hl
    omega
  obtain ⟨_, X, hX, _⟩ := C69_extraction env henv sha' σ _ (.rep _) (by exact hl) (P.order : Int) u ⟨hcom, by
      intro b hb
      refine htor b ?_
      rcases List.mem_cons.mp hb with rfl | hb
      · simp
      · simp [List.mem_of_mem_take hb]⟩ nizk nizk' "" "" q hv hv' h h' hq hq' hu
  have hfs : freshSecs next (n + 1) = next :: freshSecs (next + 1) n := by
    simp only [freshSecs, List.range_succ_eq_map, List.map_cons, List.map_map, add_zero, List.cons.injEq, true_and]
    refine List.map_congr_left fun i _ => ?_
    exact (by omega : next + (i + 1) = next + 1 + i)
  have key : com = ⟨P.G1, X (σ.key next) • g1.val + lin ((freshSecs (next + 1) n).map fun x => X (σ.key x)) gs⟩ := by
    cases hX with
    | rep _ _ hgrp hh =>
      have e1 : g1.grp = com.grp := hgrp g1 (by simp)
      rw [hgr g1 (by simp)] at e1
      have e2 : com = ⟨com.grp, com.val⟩ := rfl
      rw [e2, ← e1]
      congr 1
      refine hh.trans ?_
      simp only [hfs, List.take_succ_cons, List.zipWith_cons_cons, List.sum_cons]
      rw [← lin_take _ gs n (by simp [freshSecs])]
      simp only [lin, List.zipWith_map_left]
  refine ⟨g1, X (σ.key next), (freshSecs (next + 1) n).map fun x => X (σ.key x), by rw [hg]; rfl, by simp [freshSecs],
    by rw [hg]; simp [freshSecs, hlen], by rw [hd2]; exact key, fun w w' p hp => ?_⟩
  obtain ⟨hA, heq⟩ := sign_sigEq hk hg hp
  rw [verify_eq hk.good hg ⟨p.A, p.e, p.s + X (σ.key next)⟩ _ (by exact hA)]
  congr 1
  rw [decide_eq_true_iff, heq, key]
  congr 2
  simp only [add_smul]
  abel

/-- The commitment 3 to the messages 4, 6 with `s1 = 0` under the key `exPk` (generators 1, 3, 2, 5): proofs for the
answers 3 and 1 to one question. -/
example : ∃ (s : DLRep (ZMod 7)) (env : Env (ZMod 7)) (q : List UInt8),
    let a : NIZK (ZMod 7) := ⟨3, .list [.int 0, .int 12, .int 18], .none, [0, 0, 0]⟩
    let b : NIZK (ZMod 7) := ⟨1, .list [.int 0, .int 4, .int 6], .none, [0]⟩
    env = Ex.lengthEnv [0, 0, 0] ∧
    repOf exNames ⟨exPairing.G1, 3⟩ (freshSecs 0 3) ((exPk.generators.drop 1).take 3) = .ok s ∧
    (⟨⟨exPairing.G1, 3⟩, some a⟩ : UserCommitment _).verifyBlinding env exNames exPk 0 = .ok true ∧
    (⟨⟨exPairing.G1, 3⟩, some b⟩ : UserCommitment _).verifyBlinding (rehash env fun _ => [0]) exNames exPk 0 = .ok true ∧
    asked env exNames (.leaf s : Core (ZMod 7)) a "" = .ok q ∧ asked env exNames (.leaf s : Core (ZMod 7)) b "" = .ok q := by
  refine ⟨_, _, _, rfl, rfl, ?_, ?_, rfl, ?_⟩
  all_goals decide +kernel

end Zksk.Props
