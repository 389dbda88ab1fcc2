import Verif.Lemmas.Fork
import Verif.Lemmas.Outside
import Verif.Props.Sound
import Verif.Props.SoundStmt

/-! # C69: soundness of non-interactive proofs against provers who query the hash function -/

set_option linter.unusedSectionVars false

namespace Zksk.Props

open Spec

variable {E : Type} [AddCommGroup E] [DecidableEq E]

/-- **C69** Every verdict on a proof is the comparison of its challenge with the hash of the question `asked`. -/
theorem C69_question (env : Env E) (σ : Store) (t : Stmt E) (nizk : NIZK E) (msg : String) (b : Bool)
    (h : verify env σ t nizk msg = .ok b) :
    ∃ q, asked env σ t nizk msg = .ok q ∧ b = decide (nizk.challenge = env.toInt (env.sha q)) := by
  obtain ⟨_, _, _, q, _, _, _, _, _, h1, h2⟩ := verify_asked h
  exact ⟨q, h1, h2⟩

private theorem fork_plain {env : Env E} (henv : Readable env) {sha' : List UInt8 → List UInt8} {σ : Store} {t : Core E}
    {nizk nizk' : NIZK E} {msg msg' : String} {q : List UInt8}
    (hv : ∀ b, nizk.precommitment ≠ .bytes b) (hv' : ∀ b, nizk'.precommitment ≠ .bytes b)
    (h : verify env σ t nizk msg = .ok true) (h' : verify (rehash env sha') σ t nizk' msg' = .ok true)
    (hq : asked env σ t nizk msg = .ok q) (hq' : asked env σ t nizk' msg' = .ok q) :
    msg = msg' ∧ nizk.challenge = env.toInt (env.sha q) ∧ nizk'.challenge = env.toInt (sha' q) ∧
    ∃ com, verifyResponse σ t com nizk.challenge nizk.responses = .ok true ∧
      verifyResponse σ t com nizk'.challenge nizk'.responses = .ok true := by
  obtain ⟨t1, _, _, _, d1, _⟩ := verify_asked h
  obtain ⟨t1', _, _, _, d1', _⟩ := verify_asked h'
  cases digest_core_same d1
  cases digest_core_same d1'
  exact fork henv sha' hv hv' d1 d1' (fun _ _ _ _ => ⟨t, fun _ _ _ => rfl⟩) h h' hq hq'

/-- **C69** Whoever, having asked the hash function for the string `q`, can make accepted proofs with the answer of
`sha` and with that of `sha'`, knows values for which the statement is true: `u (y - y')` for the responses `y`, `y'`.
Representations and conjunctions, nested in any way. -/
theorem C69_extraction (env : Env E) (henv : Readable env) (sha' : List UInt8 → List UInt8) (σ : Store) (t : Core E)
    (ho : OrFree t) (hw : WellFormed t) (Q u : Int) (hk : Killed Q t) (nizk nizk' : NIZK E) (msg msg' : String)
    (q : List UInt8) (hv : ∀ b, nizk.precommitment ≠ .bytes b) (hv' : ∀ b, nizk'.precommitment ≠ .bytes b)
    (h : verify env σ t nizk msg = .ok true) (h' : verify (rehash env sha') σ t nizk' msg' = .ok true)
    (hq : asked env σ t nizk msg = .ok q) (hq' : asked env σ t nizk' msg' = .ok q)
    (hu : u * (env.toInt (env.sha q) - env.toInt (sha' q)) % Q = 1 % Q) :
    msg = msg' ∧ ∃ X : Key → Int, Holds σ t X ∧
      ∀ (x : Sec) (y y' : Int), Occ t nizk.responses x (.int y) → Occ t nizk'.responses x (.int y') →
        X (σ.key x) = u * (y - y') := by
  obtain ⟨h1, h2, h3, com, h4, h5⟩ := fork_plain henv hv hv' h h' hq hq'
  rw [← h2, ← h3] at hu
  exact ⟨h1, C18_and_extraction σ t com _ _ _ _ u Q ho hw hk hu h4 h5⟩

/-- **C69** The same for conjunctions of representations, inequalities and statements about BBS+ signatures, for
proofs with one precommitment. -/
theorem C69_primitives (env : Env E) (henv : Readable env) (sha' : List UInt8 → List UInt8) (σ : Store) (t : Stmt E)
    (ht : EveryLeaf (LeafOK fun sp => (∃ s : NotEqual E, sp = s.spec ∧ NeProper s) ∨
      ∃ (s : BBS E) (gen : E), sp = s.spec gen ∧ BBSProper s) t)
    (hn : NoOr t) (Q u : Int) (hall : ∀ x : E, Q • x = 0) (nizk nizk' : NIZK E) (msg msg' : String)
    (q : List UInt8) (hv : ∀ b, nizk.precommitment ≠ .bytes b) (hpre : nizk'.precommitment = nizk.precommitment)
    (h : verify env σ t nizk msg = .ok true) (h' : verify (rehash env sha') σ t nizk' msg' = .ok true)
    (hq : asked env σ t nizk msg = .ok q) (hq' : asked env σ t nizk' msg' = .ok q)
    (hu : u * (env.toInt (env.sha q) - env.toInt (sha' q)) % Q = 1 % Q) :
    msg = msg' ∧ ∃ X : Key → Int,
      (∀ s : DLRep E, HasLeaf (.dlrep s) t →
        s.lhs.val = (List.zipWith (fun x b => X (σ.key x) • b.val) s.secretVars s.bases).sum) ∧
      (∀ s : NotEqual E, NeProper s → Uses s.spec t →
        (∃ x : Int, s.lhs0.val = x • s.g.val ∧ s.lhs1.val ≠ x • s.h.val) ∧
        (s.bind = true → s.lhs0.val = X (σ.key s.x) • s.g.val ∧ s.lhs1.val ≠ X (σ.key s.x) • s.h.val)) ∧
      (∀ (s : BBS E) (gen : E), BBSProper s → Uses (s.spec gen) t →
        ∃ ve vs vm A, s.vars = ve :: vs :: vm ∧
          (⟨A, X (σ.key ve), X (σ.key vs)⟩ : Signature E).verify s.P s.pk (vm.map fun x => X (σ.key x)) = .ok true) := by
  obtain ⟨t1, _, _, _, d1, _⟩ := verify_asked h
  obtain ⟨h1, h2, h3, com, h4, h5⟩ := fork henv sha' hv (by rw [hpre]; exact hv) d1 (by rw [hpre]; exact d1)
    (fun com c r hr => by
      obtain ⟨S, k, _, hk⟩ := verifyResponse_stmt d1 hr
      exact ⟨k, hk⟩) h h' hq hq'
  rw [← h2, ← h3] at hu
  obtain ⟨X, k1, k2, k3, _⟩ := C58_primitives σ t t1 _ com _ _ _ _ u Q ht hn hall hu d1 h4 h5
  exact ⟨h1, X, k1, k2, k3⟩

theorem extract_any {σ : Store} {t : Core E} {com r r' : Val E} {c c' u Q : Int}
    (hw : WellFormed t) (hk : Killed Q t) (hQ : BigFactors Q) (hu : u * (c - c') % Q = 1 % Q) (hne : c % 2 ^ 128 ≠ c' % 2 ^ 128)
    (hr : InRange t r) (hr' : InRange t r')
    (h : verifyResponse σ t com c r = .ok true) (h' : verifyResponse σ t com c' r' = .ok true) :
    ∃ X : Key → Int, Holds σ t X ∧
      ∀ (x : Sec) (v v' : Int), Occ t r x (.int v) → Occ t r' x (.int v') → X (σ.key x) = u * (v - v') := by
  obtain ⟨⟨ρ, ha⟩, he⟩ := verifyResponse_iff.mp h
  obtain ⟨⟨ρ', ha'⟩, he'⟩ := verifyResponse_iff.mp h'
  refine ⟨_, extract t hw hk u c c' r r' com ρ ρ' (Int.ModEq.dvd (Int.ModEq.symm hu)) (.inr ⟨hQ, hne⟩) hr hr' ha ha' he he',
    fun x v v' ho ho' => ?_⟩
  have e1 := occ_agree ho ha
  have e2 := occ_agree ho' ha'
  simp only [← e1, ← e2, iv]

/-- **C69** The same for compositions with disjunctions, nested in any way, if the proofs give one sub-challenge per clause in
the range of those of honest provers (which the verifier does not check, see C19), and the answers also differ modulo
`2^128`. -/
theorem C69_disjunctions (env : Env E) (henv : Readable env) (sha' : List UInt8 → List UInt8) (σ : Store) (t : Core E)
    (hw : WellFormed t) (Q u : Int) (hk : Killed Q t) (hQ : BigFactors Q) (nizk nizk' : NIZK E) (msg msg' : String)
    (q : List UInt8) (hv : ∀ b, nizk.precommitment ≠ .bytes b) (hv' : ∀ b, nizk'.precommitment ≠ .bytes b)
    (hr : InRange t nizk.responses) (hr' : InRange t nizk'.responses)
    (h : verify env σ t nizk msg = .ok true) (h' : verify (rehash env sha') σ t nizk' msg' = .ok true)
    (hq : asked env σ t nizk msg = .ok q) (hq' : asked env σ t nizk' msg' = .ok q)
    (hu : u * (env.toInt (env.sha q) - env.toInt (sha' q)) % Q = 1 % Q)
    (hne : env.toInt (env.sha q) % 2 ^ 128 ≠ env.toInt (sha' q) % 2 ^ 128) :
    msg = msg' ∧ ∃ X : Key → Int, Holds σ t X ∧
      ∀ (x : Sec) (y y' : Int), Occ t nizk.responses x (.int y) → Occ t nizk'.responses x (.int y') →
        X (σ.key x) = u * (y - y') := by
  obtain ⟨h1, h2, h3, com, h4, h5⟩ := fork_plain henv hv hv' h h' hq hq'
  rw [← h2, ← h3] at hne hu
  exact ⟨h1, extract_any hw hk hQ hu hne hr hr' h4 h5⟩

/-- **C69** The same for compositions with extended parts, for proofs with one precommitment; `sem` is what an extended part
claims. -/
theorem C69_extended (sem : ExtSpec E → (Key → Int) → Prop) (good : ExtSpec E → Prop) (env : Env E) (henv : Readable env)
    (sha' : List UInt8 → List UInt8) (σ : Store)
    (hgood : ∀ sp, good sp → ∀ v k, sp.construct σ v = .ok k → sp.validate v = .ok () →
      WellFormed k ∧ ∀ X, Holds σ k X → sem sp X)
    (t : Stmt E) (ht : EveryLeaf (LeafOK good) t) (Q u : Int) (hall : ∀ x : E, Q • x = 0) (hQ : BigFactors Q)
    (nizk nizk' : NIZK E) (msg msg' : String)
    (q : List UInt8) (hv : ∀ b, nizk.precommitment ≠ .bytes b) (hpre : nizk'.precommitment = nizk.precommitment)
    (hr : ∀ S k, DigestedTop σ t nizk.precommitment S k → InRange k nizk.responses ∧ InRange k nizk'.responses)
    (h : verify env σ t nizk msg = .ok true) (h' : verify (rehash env sha') σ t nizk' msg' = .ok true)
    (hq : asked env σ t nizk msg = .ok q) (hq' : asked env σ t nizk' msg' = .ok q)
    (hu : u * (env.toInt (env.sha q) - env.toInt (sha' q)) % Q = 1 % Q)
    (hne : env.toInt (env.sha q) % 2 ^ 128 ≠ env.toInt (sha' q) % 2 ^ 128) :
    msg = msg' ∧ ∃ X : Key → Int, Truth sem σ t X ∧
      ∀ (x : Sec) (y y' : Int), Answered t nizk.responses x (.int y) → Answered t nizk'.responses x (.int y') →
        X (σ.key x) = u * (y - y') := by
  obtain ⟨t1, _, _, _, d1, _⟩ := verify_asked h
  obtain ⟨h1, h2, h3, com, h4, h5⟩ := fork henv sha' hv (by rw [hpre]; exact hv) d1 (by rw [hpre]; exact d1)
    (fun com c r hr => by
      obtain ⟨S, k, _, hk⟩ := verifyResponse_stmt d1 hr
      exact ⟨k, hk⟩) h h' hq hq'
  rw [← h2, ← h3] at hne hu
  obtain ⟨S, k, hdig, hk⟩ := verifyResponse_stmt d1 h4
  rw [hk] at h4 h5
  have hD := digestedTop_digested hdig
  obtain ⟨X, hX, hocc⟩ := extract_any (digested_wellFormed (fun sp hs v k hc hv => (hgood sp hs v k hc hv).1) hD ht)
    (killed_of_all hall k) hQ hu hne (hr S k hdig).1 (hr S k hdig).2 h4 h5
  exact ⟨h1, X, digested_truth (fun sp hs v k X hc hv => (hgood sp hs v k hc hv).2 X) hD ht hX,
    fun x y y' a a' => hocc x y y' (digested_occ hD a) (digested_occ hD a')⟩

/-- **C69** If the statement is false -- for a statement with disjunctions: its part outside them --, then for every
question `q` there is at most one residue modulo the order such that answers of the hash function with this residue
lead to an accepted proof, whatever the prover does after having asked. -/
theorem C69_false (env : Env E) (henv : Readable env) (σ : Store) (t : Core E) (hw : WellFormed t) (Q : Nat)
    (hQ : Nat.Prime Q) (hk : Killed (Q : Int) t) (hfalse : ∀ X, ¬ OutsideTrue σ X t) (q : List UInt8) :
    ∃ c0 : Int, ∀ (sha : List UInt8 → List UInt8) (nizk : NIZK E) (msg : String),
      (∀ b, nizk.precommitment ≠ .bytes b) → asked env σ t nizk msg = .ok q →
      verify (rehash env sha) σ t nizk msg = .ok true → env.toInt (sha q) % (Q : Int) = c0 % (Q : Int) := by
  by_cases hex : ∃ (sha : List UInt8 → List UInt8) (nizk : NIZK E) (msg : String),
      (∀ b, nizk.precommitment ≠ .bytes b) ∧ asked env σ t nizk msg = .ok q ∧
      verify (rehash env sha) σ t nizk msg = .ok true
  · obtain ⟨sha, nizk, msg, hv, hq, h⟩ := hex
    refine ⟨env.toInt (sha q), fun sha' nizk' msg' hv' hq' h' => ?_⟩
    obtain ⟨_, h2, h3, com, h4, h5⟩ := fork_plain (env := rehash env sha) (sha' := sha')
      ⟨henv.ids, henv.values, henv.texts⟩ hv hv' h h' hq hq'
    by_contra hne
    have hcop : IsCoprime (nizk.challenge - nizk'.challenge) (Q : Int) := by
      rw [Int.isCoprime_iff_gcd_eq_one]
      refine Nat.Coprime.symm (hQ.coprime_iff_not_dvd.mpr fun hd => hne ?_)
      replace hd := Int.natCast_dvd.mpr hd
      rw [h2, h3] at hd
      exact (Int.emod_eq_emod_iff_emod_sub_eq_zero.mpr (Int.emod_eq_zero_of_dvd hd)).symm
    obtain ⟨⟨ρ, ha⟩, he⟩ := verifyResponse_iff.mp h4
    obtain ⟨⟨ρ', ha'⟩, he'⟩ := verifyResponse_iff.mp h5
    obtain ⟨u, v, huv⟩ := hcop
    exact hfalse _ (extract_outside t hw hk u _ _ _ _ com ρ ρ' ⟨-v, by linarith⟩ ha ha' he he')
  · refine ⟨0, fun sha nizk msg hv hq h => (hex ⟨sha, nizk, msg, hv, hq, h⟩).elim⟩

/-- A false statement: `1 = x0·0` in `ℤ/7ℤ`. -/
example : ∃ t : Core (ZMod 7), WellFormed t ∧ Killed (7 : Int) t ∧ ∀ X, ¬ OutsideTrue Ex.σ0 X t := by
  refine ⟨.leaf ⟨Ex.P 1, [Ex.P 0], [0], [], false⟩, rfl, ⟨by decide, by decide⟩, fun X hX => ?_⟩
  cases hX with
  | rep _ h => cases h with
    | rep _ _ _ h => simp [Ex.P] at h; exact absurd h (by decide)

/-- A hash function of constant value `l`; the challenge is the number of bytes. -/
def Ex.lengthEnv (l : List UInt8) : Env (ZMod 7) := { Ex.fullEnv 3 with sha := fun _ => l, toInt := fun h => h.length }

theorem Ex.readable_lengthEnv (l : List UInt8) : Readable (Ex.lengthEnv l) :=
  ⟨fun a b x y h => by
      have := (Ex.encId_inj a b x y h).1
      rw [this], fun a b x y h => Ex.enc_inj _ _ x y h,
    fun a b h => (Ex.st_inj (x := []) (y := []) (by rw [List.append_nil, List.append_nil]; exact h)).1⟩

/-- `1 = x0·1 + x1·2` in `ℤ/7ℤ`: proofs for the answers 3 and 1 to the same question. -/
example : Readable (Ex.lengthEnv [0, 0, 0]) ∧
    ∃ q, asked (Ex.lengthEnv [0, 0, 0]) Ex.σ0 (.leaf Ex.rep1 : Core (ZMod 7)) ⟨3, .list [.int 6, .int 9], .none, [0, 0, 0]⟩ "m" = .ok q ∧
      asked (Ex.lengthEnv [0, 0, 0]) Ex.σ0 (.leaf Ex.rep1 : Core (ZMod 7)) ⟨1, .list [.int 2, .int 3], .none, [0]⟩ "m" = .ok q ∧
      verify (Ex.lengthEnv [0, 0, 0]) Ex.σ0 (.leaf Ex.rep1 : Core (ZMod 7)) ⟨3, .list [.int 6, .int 9], .none, [0, 0, 0]⟩ "m" = .ok true ∧
      verify (rehash (Ex.lengthEnv [0, 0, 0]) fun _ => [0]) Ex.σ0 (.leaf Ex.rep1 : Core (ZMod 7))
        ⟨1, .list [.int 2, .int 3], .none, [0]⟩ "m" = .ok true := by
  refine ⟨Ex.readable_lengthEnv _, _, rfl, ?_, ?_, ?_⟩
  all_goals decide +kernel

end Zksk.Props
