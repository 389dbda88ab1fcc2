import Verif.Lemmas.OracleFork
import Verif.Props.Fork
import Verif.Props.Library
import Verif.Lemmas.Programmed

/-! # Soundness with random hash functions (C102) -/

set_option linter.unusedSectionVars false

namespace Zksk.Props

open Spec

variable {E : Type} [AddCommGroup E] [DecidableEq E]

theorem inverse_mod {q : Nat} (hq : Nat.Prime q) {c c' : Int} (h : c % (q : Int) ≠ c' % (q : Int)) :
    ∃ u : Int, u * (c - c') % (q : Int) = 1 % (q : Int) := by
  have hcop : IsCoprime (c - c') (q : Int) := by
    rw [Int.isCoprime_iff_gcd_eq_one]
    refine Nat.Coprime.symm (hq.coprime_iff_not_dvd.mpr fun hd => h ?_)
    exact Int.emod_eq_emod_iff_emod_sub_eq_zero.mpr (Int.emod_eq_zero_of_dvd (Int.natCast_dvd.mpr hd))
  obtain ⟨u, v, huv⟩ := hcop
  refine ⟨u, ?_⟩
  rw [← huv, Int.add_mul_emod_self_right]

theorem readable_rehash {env : Env E} (henv : Readable env) (f : List UInt8 → List UInt8) : Readable (rehash env f) :=
  ⟨henv.ids, henv.values, henv.texts⟩

/-- **C102** Let the answers of the hash function to the questions in `Q` be random, and let no residue modulo the order `q`
belong to more than `β` of the answers.  Somebody asks at most `k` questions, and then makes a proof of a statement that is
false -- for a statement with disjunctions: whose part outside them is.  At most `(k + 1) β` of `|Ans|` tables of answers
make the verifier accept it. -/
theorem C102_false (env : Env E) (henv : Readable env) (σ : Store) (t : Core E) (hw : WellFormed t) (q : Nat)
    (hq : Nat.Prime q) (hk : Killed (q : Int) t) (hfalse : ∀ X, ¬ OutsideTrue σ X t) (Q Ans : Finset (List UInt8))
    (k β : Nat) (S : (List UInt8 → List UInt8) → Finset (List UInt8)) (out : (List UInt8 → List UInt8) → NIZK E × String)
    (hA : Attacker k S out) (hv : ∀ f b, (out f).1.precommitment ≠ .bytes b)
    (hQ : ∀ H x, asked env σ t (out (oracle env.sha Q Ans H)).1 (out (oracle env.sha Q Ans H)).2 = .ok x → x ∈ Q)
    (hβ : ∀ c : Int, Nat.card {a // a ∈ Ans ∧ env.toInt a % (q : Int) = c} ≤ β) :
    Ans.card * accepted env Q Ans σ t out ≤ (k + 1) * β * Ans.card ^ Q.card := by
  refine Oracle.attack (fun a b => env.toInt a % (q : Int) = env.toInt b % (q : Int)) hA hQ (fun b _ => hβ _) fun H x _ a _ f f' _ hf' h h' hx hx' => ?_
  obtain ⟨c0, hc⟩ := C69_false env henv σ t hw q hq hk hfalse x
  have e1 := hc f _ _ (hv f) hx h
  have e2 := hc f' _ _ (hv f') hx' h'
  have e3 : f' x = a := by rw [hf']; simp [answering]
  rw [e3] at e2
  exact e1.trans e2.symm

/-- **C102** Whoever makes proofs of a conjunction of representations, nested in any way, that are accepted for more than
`(k + 1) β` of `|Ans|` tables of answers, knows values for which it is true: there are a table and a question such that
their proof is accepted with this table and, if one answer is changed, again; and `u (y - y')` are such values for the
responses `y` of the one and `y'` of the other. -/
theorem C102_knowledge (env : Env E) (henv : Readable env) (σ : Store) (t : Core E) (ho : OrFree t) (hw : WellFormed t) (q : Nat)
    (hq : Nat.Prime q) (hk : Killed (q : Int) t) (Q Ans : Finset (List UInt8))
    (k β : Nat) (S : (List UInt8 → List UInt8) → Finset (List UInt8)) (out : (List UInt8 → List UInt8) → NIZK E × String)
    (hA : Attacker k S out) (hv : ∀ f b, (out f).1.precommitment ≠ .bytes b)
    (hQ : ∀ H x, asked env σ t (out (oracle env.sha Q Ans H)).1 (out (oracle env.sha Q Ans H)).2 = .ok x → x ∈ Q)
    (hβ : ∀ c : Int, Nat.card {a // a ∈ Ans ∧ env.toInt a % (q : Int) = c} ≤ β)
    (hmany : (k + 1) * β * Ans.card ^ Q.card < Ans.card * accepted env Q Ans σ t out) :
    ∃ H, ∃ x ∈ Q, ∃ a ∈ Ans, ∃ (f f' : List UInt8 → List UInt8) (u : Int) (X : Key → Int),
      f = oracle env.sha Q Ans H ∧ f' = answering f x a ∧
      verify (rehash env f) σ t (out f).1 (out f).2 = .ok true ∧ verify (rehash env f') σ t (out f').1 (out f').2 = .ok true ∧
      u * (env.toInt (f x) - env.toInt a) % (q : Int) = 1 % (q : Int) ∧ Holds σ t X ∧
      ∀ (x : Sec) (y y' : Int), Occ t (out f).1.responses x (.int y) → Occ t (out f').1.responses x (.int y') →
        X (σ.key x) = u * (y - y') := by
  by_contra hno
  refine absurd hmany (Nat.not_lt.mpr (Oracle.attack (fun a b => env.toInt a % (q : Int) = env.toInt b % (q : Int)) hA hQ (fun b _ => hβ _) fun H x hxQ a ha f f' hf hf' h h' hx hx' => ?_))
  by_contra hne
  obtain ⟨u, hu⟩ := inverse_mod hq hne
  have e3 : f' x = a := by rw [hf']; simp [answering]
  obtain ⟨_, X, hX, hocc⟩ := C69_extraction (rehash env f) (readable_rehash henv f) f' σ t ho hw q u hk _ _ _ _ x (hv f) (hv f') h h' hx hx'
    (by rw [e3]; exact hu)
  exact hno ⟨H, x, hxQ, a, ha, f, f', u, X, hf, hf', h, h', hu, hX, hocc⟩

/-- Proofs with one question have one precommitment. -/
theorem same_precommitment {env : Env E} (henv : Readable env) (σ : Store) (t : Stmt E) {x : List UInt8}
    {f f' : List UInt8 → List UInt8} {out : (List UInt8 → List UInt8) → NIZK E × String}
    (hv : ∀ f b, (out f).1.precommitment ≠ .bytes b) (hcan : ∀ f, content (out f).1.precommitment = (out f).1.precommitment)
    (h : verify (rehash env f) σ t (out f).1 (out f).2 = .ok true) (h' : verify (rehash env f') σ t (out f').1 (out f').2 = .ok true)
    (hx : asked env σ t (out f).1 (out f).2 = .ok x) (hx' : asked env σ t (out f').1 (out f').2 = .ok x) :
    (out f').1.precommitment = (out f).1.precommitment := by
  obtain ⟨t1, id, com, q1, d1, _, _, r1, c1, a1, _⟩ := verify_asked h
  obtain ⟨t1', id', com', q1', d1', _, _, r1', c1', a1', _⟩ := verify_asked h'
  cases hx.symm.trans a1
  cases hx'.symm.trans a1'
  obtain ⟨_, k1, _, hk⟩ := verifyResponse_stmt d1 r1
  obtain ⟨_, k1', _, hk'⟩ := verifyResponse_stmt d1' r1'
  have n1 := (verifyResponse_iff.mp ((hk _ _ _).symm.trans r1)).2
  have n1' := (verifyResponse_iff.mp ((hk' _ _ _).symm.trans r1')).2
  obtain ⟨_, k3, _, _⟩ := Props.C12_input_injective_partial env henv.ids henv.values henv.texts id id' _ _ com com' _ _ _
    (hv f) (hv f') (eqns_not_bytes n1) (eqns_not_bytes n1') c1 c1'
  rw [← hcan f', ← hcan f, k3]

/-- **C102** The same for compositions with disjunctions, nested in any way, against those who give one sub-challenge per clause
in the range of honest provers (which the verifier does not check, see C19).  All prime factors of the orders are large; no
residue modulo `2^128` belongs to more than `γ` of the answers. -/
theorem C102_disjunctions (env : Env E) (henv : Readable env) (σ : Store) (t : Core E) (hw : WellFormed t) (q : Nat)
    (hq : Nat.Prime q) (hk : Killed (q : Int) t) (hbig : BigFactors (q : Int)) (Q Ans : Finset (List UInt8))
    (k β γ : Nat) (S : (List UInt8 → List UInt8) → Finset (List UInt8)) (out : (List UInt8 → List UInt8) → NIZK E × String)
    (hA : Attacker k S out) (hv : ∀ f b, (out f).1.precommitment ≠ .bytes b) (hr : ∀ f, InRange t (out f).1.responses)
    (hQ : ∀ H x, asked env σ t (out (oracle env.sha Q Ans H)).1 (out (oracle env.sha Q Ans H)).2 = .ok x → x ∈ Q)
    (hβ : ∀ c : Int, Nat.card {a // a ∈ Ans ∧ env.toInt a % (q : Int) = c} ≤ β)
    (hγ : ∀ c : Int, Nat.card {a // a ∈ Ans ∧ env.toInt a % 2 ^ 128 = c} ≤ γ)
    (hmany : (k + 1) * (β + γ) * Ans.card ^ Q.card < Ans.card * accepted env Q Ans σ t out) :
    ∃ H, ∃ x ∈ Q, ∃ a ∈ Ans, ∃ (f f' : List UInt8 → List UInt8) (u : Int) (X : Key → Int),
      f = oracle env.sha Q Ans H ∧ f' = answering f x a ∧
      verify (rehash env f) σ t (out f).1 (out f).2 = .ok true ∧ verify (rehash env f') σ t (out f').1 (out f').2 = .ok true ∧
      u * (env.toInt (f x) - env.toInt a) % (q : Int) = 1 % (q : Int) ∧ Holds σ t X ∧
      ∀ (x : Sec) (y y' : Int), Occ t (out f).1.responses x (.int y) → Occ t (out f').1.responses x (.int y') →
        X (σ.key x) = u * (y - y') := by
  by_contra hno
  refine absurd hmany (Nat.not_lt.mpr (Oracle.attack
    (fun a b => env.toInt a % (q : Int) = env.toInt b % (q : Int) ∨ env.toInt a % 2 ^ 128 = env.toInt b % 2 ^ 128) hA hQ
    (fun b _ => Oracle.near_or (hβ _) (hγ _)) fun H x hxQ a ha f f' hf hf' h h' hx hx' => ?_))
  by_contra hne
  obtain ⟨hne, hne'⟩ := not_or.mp hne
  obtain ⟨u, hu⟩ := inverse_mod hq hne
  have e3 : f' x = a := by rw [hf']; simp [answering]
  obtain ⟨_, X, hX, hocc⟩ := C69_disjunctions (rehash env f) (readable_rehash henv f) f' σ t hw q u hk hbig _ _ _ _ x (hv f) (hv f')
    (hr f) (hr f') h h' hx hx' (by rw [e3]; exact hu) (by rw [e3]; exact hne')
  exact hno ⟨H, x, hxQ, a, ha, f, f', u, X, hf, hf', h, h', hu, hX, hocc⟩

/-- **C102** The same for compositions with extended parts, where `sem` is what such a part claims. -/
theorem C102_extended (sem : ExtSpec E → (Key → Int) → Prop) (good : ExtSpec E → Prop) (env : Env E) (henv : Readable env) (σ : Store)
    (hgood : ∀ sp, good sp → ∀ v k, sp.construct σ v = .ok k → sp.validate v = .ok () →
      WellFormed k ∧ ∀ X, Holds σ k X → sem sp X)
    (t : Stmt E) (ht : EveryLeaf (LeafOK good) t) (q : Nat) (hq : Nat.Prime q) (hall : ∀ x : E, (q : Int) • x = 0)
    (hbig : BigFactors (q : Int)) (Q Ans : Finset (List UInt8))
    (k β γ : Nat) (S : (List UInt8 → List UInt8) → Finset (List UInt8)) (out : (List UInt8 → List UInt8) → NIZK E × String)
    (hA : Attacker k S out) (hv : ∀ f b, (out f).1.precommitment ≠ .bytes b)
    (hcan : ∀ f, content (out f).1.precommitment = (out f).1.precommitment)
    (hr : ∀ f S k, DigestedTop σ t (out f).1.precommitment S k → InRange k (out f).1.responses)
    (hQ : ∀ H x, asked env σ t (out (oracle env.sha Q Ans H)).1 (out (oracle env.sha Q Ans H)).2 = .ok x → x ∈ Q)
    (hβ : ∀ c : Int, Nat.card {a // a ∈ Ans ∧ env.toInt a % (q : Int) = c} ≤ β)
    (hγ : ∀ c : Int, Nat.card {a // a ∈ Ans ∧ env.toInt a % 2 ^ 128 = c} ≤ γ)
    (hmany : (k + 1) * (β + γ) * Ans.card ^ Q.card < Ans.card * accepted env Q Ans σ t out) :
    ∃ H, ∃ x ∈ Q, ∃ a ∈ Ans, ∃ (f f' : List UInt8 → List UInt8) (u : Int) (X : Key → Int),
      f = oracle env.sha Q Ans H ∧ f' = answering f x a ∧
      verify (rehash env f) σ t (out f).1 (out f).2 = .ok true ∧ verify (rehash env f') σ t (out f').1 (out f').2 = .ok true ∧
      u * (env.toInt (f x) - env.toInt a) % (q : Int) = 1 % (q : Int) ∧ Truth sem σ t X ∧
      ∀ (x : Sec) (y y' : Int), Answered t (out f).1.responses x (.int y) → Answered t (out f').1.responses x (.int y') →
        X (σ.key x) = u * (y - y') := by
  by_contra hno
  refine absurd hmany (Nat.not_lt.mpr (Oracle.attack
    (fun a b => env.toInt a % (q : Int) = env.toInt b % (q : Int) ∨ env.toInt a % 2 ^ 128 = env.toInt b % 2 ^ 128) hA hQ
    (fun b _ => Oracle.near_or (hβ _) (hγ _)) fun H x hxQ a ha f f' hf hf' h h' hx hx' => ?_))
  by_contra hne
  obtain ⟨hne, hne'⟩ := not_or.mp hne
  obtain ⟨u, hu⟩ := inverse_mod hq hne
  have e3 : f' x = a := by rw [hf']; simp [answering]
  have hpre := same_precommitment henv σ t hv hcan h h' hx hx'
  obtain ⟨_, X, hX, hocc⟩ := C69_extended sem good (rehash env f) (readable_rehash henv f) f' σ hgood t ht q u hall hbig _ _ _ _ x (hv f)
    hpre (fun S k hd => ⟨hr f S k hd, hr f' S k (hpre ▸ hd)⟩) h h' hx hx' (by rw [e3]; exact hu) (by rw [e3]; exact hne')
  exact hno ⟨H, x, hxQ, a, ha, f, f', u, X, hf, hf', h, h', hu, hX, hocc⟩

/-- **C102** The same for conjunctions with inequalities and statements about BBS+ signatures: whoever makes them accepted so
often has values for which all parts are true, among them messages, and the exponents of a valid signature on them.  The
precommitments are such as come out of decoding a proof. -/
theorem C102_primitives (env : Env E) (henv : Readable env) (σ : Store) (t : Stmt E)
    (ht : EveryLeaf (LeafOK fun sp => (∃ s : NotEqual E, sp = s.spec ∧ NeProper s) ∨
      ∃ (s : BBS E) (gen : E), sp = s.spec gen ∧ BBSProper s) t)
    (hn : NoOr t) (q : Nat) (hq : Nat.Prime q) (hall : ∀ x : E, (q : Int) • x = 0) (Q Ans : Finset (List UInt8))
    (k β : Nat) (S : (List UInt8 → List UInt8) → Finset (List UInt8)) (out : (List UInt8 → List UInt8) → NIZK E × String)
    (hA : Attacker k S out) (hv : ∀ f b, (out f).1.precommitment ≠ .bytes b)
    (hcan : ∀ f, content (out f).1.precommitment = (out f).1.precommitment)
    (hQ : ∀ H x, asked env σ t (out (oracle env.sha Q Ans H)).1 (out (oracle env.sha Q Ans H)).2 = .ok x → x ∈ Q)
    (hβ : ∀ c : Int, Nat.card {a // a ∈ Ans ∧ env.toInt a % (q : Int) = c} ≤ β)
    (hmany : (k + 1) * β * Ans.card ^ Q.card < Ans.card * accepted env Q Ans σ t out) :
    ∃ X : Key → Int,
      (∀ s : DLRep E, HasLeaf (.dlrep s) t →
        s.lhs.val = (List.zipWith (fun x b => X (σ.key x) • b.val) s.secretVars s.bases).sum) ∧
      (∀ s : NotEqual E, NeProper s → Uses s.spec t →
        (∃ x : Int, s.lhs0.val = x • s.g.val ∧ s.lhs1.val ≠ x • s.h.val) ∧
        (s.bind = true → s.lhs0.val = X (σ.key s.x) • s.g.val ∧ s.lhs1.val ≠ X (σ.key s.x) • s.h.val)) ∧
      (∀ (s : BBS E) (gen : E), BBSProper s → Uses (s.spec gen) t →
        ∃ ve vs vm A, s.vars = ve :: vs :: vm ∧
          (⟨A, X (σ.key ve), X (σ.key vs)⟩ : Signature E).verify s.P s.pk (vm.map fun x => X (σ.key x)) = .ok true) := by
  by_contra hno
  refine absurd hmany (Nat.not_lt.mpr (Oracle.attack (fun a b => env.toInt a % (q : Int) = env.toInt b % (q : Int)) hA hQ (fun b _ => hβ _) fun H x hxQ a ha f f' hf hf' h h' hx hx' => ?_))
  by_contra hne
  obtain ⟨u, hu⟩ := inverse_mod hq hne
  have e3 : f' x = a := by rw [hf']; simp [answering]
  have hpre := same_precommitment henv σ t hv hcan h h' hx hx'
  obtain ⟨_, X, hX⟩ := C69_primitives (rehash env f) (readable_rehash henv f) f' σ t ht hn q u hall _ _ _ _ x (hv f) hpre h h' hx hx'
    (by rw [e3]; exact hu)
  exact hno ⟨X, hX⟩

/-! Examples in `ℤ/7ℤ`: the answers are strings of length 0 to 6, and the challenge is the length. -/

private def exAns : Finset (List UInt8) := {[], [0], [0, 0], [0, 0, 0], [0, 0, 0, 0], [0, 0, 0, 0, 0], [0, 0, 0, 0, 0, 0]}

private abbrev exEnv := Ex.lengthEnv [0, 0, 0]

private theorem exAns_one (c : Int) : Nat.card {a // a ∈ exAns ∧ exEnv.toInt a % ((7 : Nat) : Int) = c} ≤ 1 := by
  have h : ∀ a ∈ exAns, ∀ b ∈ exAns, (a.length : Int) % 7 = (b.length : Int) % 7 → a = b := by decide +kernel
  have : Subsingleton {a // a ∈ exAns ∧ exEnv.toInt a % ((7 : Nat) : Int) = c} :=
    ⟨fun a b => Subtype.ext (h _ a.2.1 _ b.2.1 (a.2.2.trans b.2.2.symm))⟩
  exact Finite.card_le_one_iff_subsingleton.mpr this

/-- The question for a proof. -/
private def exAsk {L : Type} [StmtOps (ZMod 7) L] (t : Tree L) (σ : Store) (π : NIZK (ZMod 7)) : List UInt8 :=
  match asked exEnv σ t π "m" with
  | .ok x => x
  | .error _ => []

/-- All tables for one question. -/
private theorem exOne {x : List UInt8} {P : ({y // y ∈ ({x} : Finset (List UInt8))} → {a // a ∈ exAns}) → Prop}
    (h : ∀ a : {a // a ∈ exAns}, P fun _ => a) (H) : P H := by
  have : H = fun _ => H ⟨x, by simp⟩ := by
    funext ⟨y, hy⟩
    have : y = x := by simpa using hy
    subst this; rfl
  rw [this]
  exact h _

/-- The false statement `1 = x0·0`, and somebody who hopes for the challenge 3, asking nothing: they succeed for one of the
seven tables, which is what the theorem allows. -/
private def exNever : Core (ZMod 7) := .leaf ⟨Ex.P 1, [Ex.P 0], [0], [], false⟩

private def exHope : NIZK (ZMod 7) := ⟨3, .list [.int 0], .none, [0, 0, 0]⟩

example : exAns.card * accepted exEnv {exAsk exNever Ex.σ0 exHope} exAns Ex.σ0 exNever (fun _ => (exHope, "m")) ≤
    (0 + 1) * 1 * exAns.card ^ 1 :=
  C102_false exEnv (Ex.readable_lengthEnv _) Ex.σ0 exNever rfl 7 (by decide) ⟨by decide, by decide⟩
    (fun X hX => by
      unfold exNever at hX
      cases hX with
      | rep _ h => cases h with
        | rep _ _ _ h => simp [Ex.P] at h; exact absurd h (by decide))
    _ exAns 0 1 (fun _ => ∅) _ ⟨fun _ => by simp, fun _ _ _ => ⟨rfl, rfl⟩⟩ (fun _ _ => by simp [exHope])
    (fun _ x hx => by simp only [exAsk, hx, Finset.mem_singleton]) exAns_one

example : verify (rehash exEnv (oracle exEnv.sha {exAsk exNever Ex.σ0 exHope} exAns fun _ => ⟨[0, 0, 0], by decide⟩)) Ex.σ0 exNever
    exHope "m" = .ok true := by decide +kernel

/-- `1 = x0·1 + x1·2` and somebody who knows `x0 = 2`, `x1 = 3`. -/
private def exKnows (f : List UInt8 → List UInt8) : NIZK (ZMod 7) × String :=
  let n : Nat := (f (exAsk (.leaf Ex.rep1 : Core (ZMod 7)) Ex.σ0 ⟨0, .list [.int 0, .int 0], .none, [0, 0, 0]⟩)).length
  (⟨n, .list [.int (2 * n), .int (3 * n)], .none, [0, 0, 0]⟩, "m")

private def exKnowsAsk : List UInt8 := exAsk (.leaf Ex.rep1 : Core (ZMod 7)) Ex.σ0 ⟨0, .list [.int 0, .int 0], .none, [0, 0, 0]⟩

example := C102_knowledge exEnv (Ex.readable_lengthEnv _) Ex.σ0 (.leaf Ex.rep1) (.rep _) rfl 7 (by decide) ⟨by decide, by decide⟩
    {exKnowsAsk} exAns 1 1 (fun _ => {exKnowsAsk}) exKnows
    ⟨fun _ => by simp, fun f g h => ⟨rfl, by
      have := h exKnowsAsk (by simp)
      unfold exKnowsAsk at this
      simp only [exKnows, this]⟩⟩ (fun _ _ => by simp [exKnows])
    (fun H => exOne (P := fun H => ∀ x, asked exEnv Ex.σ0 (.leaf Ex.rep1 : Core (ZMod 7)) (exKnows (oracle exEnv.sha {exKnowsAsk} exAns H)).1
      (exKnows (oracle exEnv.sha {exKnowsAsk} exAns H)).2 = .ok x → x ∈ ({exKnowsAsk} : Finset _)) (fun a x hx => by
        have h : ∀ a : {a // a ∈ exAns}, asked exEnv Ex.σ0 (.leaf Ex.rep1 : Core (ZMod 7)) (exKnows (oracle exEnv.sha {exKnowsAsk} exAns fun _ => a)).1
          (exKnows (oracle exEnv.sha {exKnowsAsk} exAns fun _ => a)).2 = .ok exKnowsAsk := by decide +kernel
        rw [h a] at hx
        cases hx
        simp) H) exAns_one
    (by
      have : accepted exEnv {exKnowsAsk} exAns Ex.σ0 (.leaf Ex.rep1 : Core (ZMod 7)) exKnows = 7 := by
        have h : ∀ H, verify (rehash exEnv (oracle exEnv.sha {exKnowsAsk} exAns H)) Ex.σ0 (.leaf Ex.rep1 : Core (ZMod 7))
            (exKnows (oracle exEnv.sha {exKnowsAsk} exAns H)).1 (exKnows (oracle exEnv.sha {exKnowsAsk} exAns H)).2 = .ok true :=
          exOne (by decide +kernel)
        unfold accepted
        rw [Nat.card_congr (Equiv.subtypeUnivEquiv h)]
        simp [Nat.card_eq_fintype_card]
        decide
      rw [this]
      decide)

/-- `3 = x·1` and `5 ≠ x·3`, and somebody who knows `x = 3`. -/
private def exUnequal : Stmt (ZMod 7) := .and false [.leaf (.dlrep ⟨Ex.P 3, [Ex.P 1], [1], [], false⟩), exLibNe.stmt]

private def exAnswers (n : Nat) : NIZK (ZMod 7) :=
  ⟨n, .list [.list [.int (3 * n)], .list [.list [.int (3 * n), .int (6 * n)], .list [.int (3 * n), .int (6 * n)], .list [.int (3 * n)]]],
    .list [.none, .pt (Ex.P 4)], [0, 0, 0]⟩

private def exUnequalAsk : List UInt8 := exAsk exUnequal exLibStore (exAnswers 0)

private def exTells (f : List UInt8 → List UInt8) : NIZK (ZMod 7) × String := (exAnswers (f exUnequalAsk).length, "m")

set_option maxRecDepth 8000 in
example := C102_primitives exEnv (Ex.readable_lengthEnv _) exLibStore exUnequal
    (by
      refine .all _ _ (by simp) fun t ht => ?_
      simp only [List.mem_cons, List.not_mem_nil, or_false] at ht
      rcases ht with rfl | rfl
      · exact .leaf _ rfl
      · exact .leaf _ (.inl ⟨exLibNe, rfl, ⟨(by decide : Nat.Prime 7), rfl, by decide, by decide⟩⟩))
    (by
      refine .all _ _ fun t ht => ?_
      simp only [List.mem_cons, List.not_mem_nil, or_false] at ht
      rcases ht with rfl | rfl
      · exact .leaf _
      · exact .leaf _) 7 (by decide) (by decide +kernel)
    {exUnequalAsk} exAns 1 1 (fun _ => {exUnequalAsk}) exTells
    ⟨fun _ => by simp, fun f g h => ⟨rfl, by simp only [exTells, h exUnequalAsk (by simp)]⟩⟩ (fun _ _ => by simp [exTells, exAnswers])
    (fun _ => rfl)
    (fun H => exOne (P := fun H => ∀ x, asked exEnv exLibStore exUnequal (exTells (oracle exEnv.sha {exUnequalAsk} exAns H)).1
      (exTells (oracle exEnv.sha {exUnequalAsk} exAns H)).2 = .ok x → x ∈ ({exUnequalAsk} : Finset _)) (fun a x hx => by
        have h : ∀ a : {a // a ∈ exAns}, asked exEnv exLibStore exUnequal (exTells (oracle exEnv.sha {exUnequalAsk} exAns fun _ => a)).1
          (exTells (oracle exEnv.sha {exUnequalAsk} exAns fun _ => a)).2 = .ok exUnequalAsk := by decide +kernel
        rw [h a] at hx
        cases hx
        simp) H) exAns_one
    (by
      have : accepted exEnv {exUnequalAsk} exAns exLibStore exUnequal exTells = 7 := by
        have h : ∀ H, verify (rehash exEnv (oracle exEnv.sha {exUnequalAsk} exAns H)) exLibStore exUnequal
            (exTells (oracle exEnv.sha {exUnequalAsk} exAns H)).1 (exTells (oracle exEnv.sha {exUnequalAsk} exAns H)).2 = .ok true :=
          exOne (by decide +kernel)
        unfold accepted
        rw [Nat.card_congr (Equiv.subtypeUnivEquiv h)]
        simp [Nat.card_eq_fintype_card]
        decide
      rw [this]
      decide)

/-! `1 = x0·1 or 1 = x2·1` in a group of large prime order, and somebody who knows `x0 = 1`. -/

private def exLarge (p : Nat) [NeZero p] : Env (ZMod p) where
  sha _ := []
  toInt h := h.length
  idBytes := Ex.encId
  encode v := Ex.enc (content v)
  utf8 := Ex.st

private theorem exLarge_readable (p : Nat) [NeZero p] : Readable (exLarge p) :=
  ⟨fun a b x y h => by
      have := (Ex.encId_inj a b x y h).1
      rw [this], fun a b x y h => Ex.enc_inj _ _ x y h,
    fun a b h => (Ex.st_inj (x := []) (y := []) (by rw [List.append_nil, List.append_nil]; exact h)).1⟩

abbrev exLargeOr (p : Nat) : Core (ZMod p) := .or false [.leaf (exBig p 0), .leaf (exBig p 2)]

theorem exLargeOr_range (p : Nat) (c : Int) (h0 : 0 ≤ c) (h1 : c < 2 ^ 128) : InRange (exLargeOr p) (exBigAns p c) := by
  refine ⟨fun cs h => ?_, fun rs h => ?_⟩
  · have h1 : [(.int c : Val (ZMod p)), .int 0] = cs.map .int := by
      simpa [Val.index, exBigAns] using h
    match cs, h1 with
    | [a, b], h1 =>
      simp only [List.map_cons, List.map_nil, List.cons.injEq, Val.int.injEq, and_true] at h1
      obtain ⟨rfl, rfl⟩ := h1
      simp
      omega
  · simp [InRangeL, InRange]

theorem exLargeOr_run (p : Nat) (c : Int) : (∃ ρ, Agree Ex.σ (exLargeOr p) (exBigAns p c) ρ) ∧ Eqns (exLargeOr p) c (exBigAns p c) (exBigCom p) := by
  let g : Pt (ZMod p) := ⟨⟨0, p, true⟩, 1⟩
  have one : ∀ (x : Sec) (c : Int), Eqns (.leaf ⟨g, [g], [x], [], false⟩) c (.list [.int c]) (.pt ⟨⟨0, p, true⟩, 0⟩) := by
    intro x c
    have := Eqns.rep ⟨g, [g], [x], [], false⟩ c (.list [.int c]) _ [c] rfl (fun _ => rfl) rfl (by simp)
    simpa [g] using this
  refine ⟨⟨fun _ => .int 0, .any _ _ _ (.list [.list [.int c], .list [.int 0]]) _
    (fun i => if i = 0 then .list [.int c] else .list [.int 0])
    (fun i _ => if i = 0 then .int c else .int 0) (fun _ => rfl) ?_ ?_⟩,
    .any _ _ _ _ (.list [.list [.int c], .list [.int 0]]) [c, 0] _
    (fun i => if i = 0 then .list [.int c] else .list [.int 0]) rfl rfl (by simp) rfl (by simp) ?_ ?_⟩
  · intro i hi
    match i, hi with
    | 0, _ => rfl
    | 1, _ => rfl
  · intro i t hi
    match i, hi with
    | 0, hi => cases hi; exact .rep _ _ _ (fun j x hj => by
        match j, hj with
        | 0, _ => rfl)
    | 1, hi => cases hi; exact .rep _ _ _ (fun j x hj => by
        match j, hj with
        | 0, _ => rfl)
  · intro i hi
    match i, hi with
    | 0, _ => rfl
    | 1, _ => rfl
  · intro i t com ci ht hcom hci
    match i, ht, hcom, hci with
    | 0, ht, hcom, hci => cases ht; cases hcom; cases hci; exact one 0 c
    | 1, ht, hcom, hci => cases ht; cases hcom; cases hci; exact one 2 0

/-- The question. -/
private theorem exOr_asked (p : Nat) [NeZero p] : ∃ id x, Tree.proofId Ex.σ (exLargeOr p) = .ok id ∧
    (exLarge p).challengeInput id .none (exBigCom p) "m" = .ok x ∧ (exLarge p).idBytes id ≠ x ∧
    ∀ (c : Int) (h : List UInt8), asked (exLarge p) Ex.σ (exLargeOr p) ⟨c, exBigAns p c, .none, h⟩ "m" = .ok x := by
  obtain ⟨id, _, hid, _⟩ := Tree.proofId_isOk (σ := Ex.σ) (skel_core (exLargeOr p))
  have hx : (exLarge p).challengeInput id .none (exBigCom p) "m" = .ok _ := rfl
  refine ⟨id, _, hid, hx, question_ne (exLarge_readable p) (by simp [exBigCom]) hx, fun c h => ?_⟩
  unfold asked digestPrecommitment
  simp only [fresh_core, Val.isNone, if_true, bind_ok, hid, (recompute_iff _ _ _ _).mpr (exLargeOr_run p c).2, hx]

private theorem exAns_few (M : Int) (hM : 7 ≤ M) (p : Nat) [NeZero p] (c : Int) :
    Nat.card {a // a ∈ exAns ∧ (exLarge p).toInt a % M = c} ≤ 1 := by
  have h : ∀ a ∈ exAns, ∀ b ∈ exAns, a.length = b.length → a = b := by decide +kernel
  have h7 : ∀ a ∈ exAns, a.length < 7 := by decide +kernel
  have : Subsingleton {a // a ∈ exAns ∧ (exLarge p).toInt a % M = c} := ⟨fun a b => Subtype.ext (h _ a.2.1 _ b.2.1 (by
    have h1 : (a.1.length : Int) % M = (b.1.length : Int) % M := a.2.2.trans b.2.2.symm
    have := h7 _ a.2.1
    have := h7 _ b.2.1
    rw [Int.emod_eq_of_lt (by omega) (by omega), Int.emod_eq_of_lt (by omega) (by omega)] at h1
    omega))⟩
  exact Finite.card_le_one_iff_subsingleton.mpr this

private def exTelling (p : Nat) (x : List UInt8) (f : List UInt8 → List UInt8) : NIZK (ZMod p) × String :=
  (⟨((f x).length % 7 : Nat), exBigAns p ((f x).length % 7 : Nat), .none, []⟩, "m")

private theorem exTelling_accepted (p : Nat) [NeZero p] {id : PId (ZMod p)} {x : List UInt8} (hid : Tree.proofId Ex.σ (exLargeOr p) = .ok id)
    (hx : (exLarge p).challengeInput id .none (exBigCom p) "m" = .ok x) (hne : (exLarge p).idBytes id ≠ x)
    (H : {y // y ∈ ({x} : Finset (List UInt8))} → {a // a ∈ exAns}) :
    verify (rehash (exLarge p) (oracle (exLarge p).sha {x} exAns H)) Ex.σ (exLargeOr p) (exTelling p x (oracle (exLarge p).sha {x} exAns H)).1
      (exTelling p x (oracle (exLarge p).sha {x} exAns H)).2 = .ok true := by
  have h7 : ∀ a ∈ exAns, a.length < 7 := by decide +kernel
  set f := oracle (exLarge p).sha {x} exAns H with hf
  have hfx : (f x).length < 7 := h7 _ (by simp [hf, oracle])
  have hdig : (rehash (exLarge p) f).digest id = [] := by
    show f ((exLarge p).idBytes id) = []
    have hn : (exLarge p).idBytes id ∉ ({x} : Finset (List UInt8)) := by simpa using hne
    simp only [hf, oracle, dif_neg hn]
    rfl
  have hfs : (rehash (exLarge p) f).fiatShamir id .none (exBigCom p) "m" = .ok ((f x).length : Int) := by
    have h1 : (rehash (exLarge p) f).challengeInput id .none (exBigCom p) "m" = .ok x := hx
    unfold Env.fiatShamir
    rw [h1]
    rfl
  obtain ⟨d', hd'⟩ := consistency_iff.mpr (exLargeOr_run p ((f x).length : Int)).1
  simp only [exTelling, Nat.mod_eq_of_lt hfx]
  unfold verify digestPrecommitment checkStatement preVerification
  simp only [fresh_core, Val.isNone, if_true, bind_ok, hid, hdig, ne_eq, not_true_eq_false, if_false,
    validate_core, hd', (recompute_iff _ _ _ _).mpr (exLargeOr_run p _).2, hfs, decide_true]

/-- With the question of `exOr_asked`. -/
example (p : Nat) [NeZero p] (hle : 2 ^ 129 ≤ p) (hp : p.Prime) (id : PId (ZMod p)) (x : List UInt8)
    (hid : Tree.proofId Ex.σ (exLargeOr p) = .ok id)
    (hx : (exLarge p).challengeInput id .none (exBigCom p) "m" = .ok x) (hne : (exLarge p).idBytes id ≠ x)
    (hask : ∀ (c : Int) (h : List UInt8), asked (exLarge p) Ex.σ (exLargeOr p) ⟨c, exBigAns p c, .none, h⟩ "m" = .ok x) :=
  have hr := exBig_run p hle hp _ rfl
  C102_disjunctions (exLarge p) (exLarge_readable p) Ex.σ (exLargeOr p) hr.1 p hp hr.2.1 hr.2.2.1 {x} exAns 1 1 1 (fun _ => {x}) (exTelling p x)
    ⟨fun _ => by simp, fun f g h => ⟨rfl, by simp only [exTelling, h x (by simp)]⟩⟩ (fun _ _ => by simp [exTelling])
    (fun f => exLargeOr_range p _ (by omega) (by omega))
    (fun H y hy => by
      have := hask ((oracle (exLarge p).sha {x} exAns H x).length % 7 : Nat) []
      have := hy.symm.trans this
      cases this
      simp)
    (exAns_few p (by omega) p) (exAns_few _ (by omega) p)
    (by
      have : accepted (exLarge p) {x} exAns Ex.σ (exLargeOr p) (exTelling p x) = 7 := by
        unfold accepted
        rw [Nat.card_congr (Equiv.subtypeUnivEquiv (exTelling_accepted p hid hx hne))]
        simp [Nat.card_eq_fintype_card]
        decide
      rw [this]
      simp
      decide)

/-- For C69: the answers `[]` and `[0]`. -/
example (p : Nat) [NeZero p] (hle : 2 ^ 129 ≤ p) (hp : p.Prime) (id : PId (ZMod p)) (x : List UInt8)
    (hid : Tree.proofId Ex.σ (exLargeOr p) = .ok id)
    (hx : (exLarge p).challengeInput id .none (exBigCom p) "m" = .ok x) (hne : (exLarge p).idBytes id ≠ x)
    (hask : ∀ (c : Int) (h : List UInt8), asked (exLarge p) Ex.σ (exLargeOr p) ⟨c, exBigAns p c, .none, h⟩ "m" = .ok x) :=
  have hr := exBig_run p hle hp _ rfl
  have h0 : oracle (exLarge p).sha {x} exAns (fun _ => ⟨[], by decide⟩) x = [] := by simp [oracle]
  have h1 : oracle (exLarge p).sha {x} exAns (fun _ => ⟨[0], by decide⟩) x = [0] := by simp [oracle]
  C69_disjunctions (rehash (exLarge p) (oracle (exLarge p).sha {x} exAns fun _ => ⟨[], by decide⟩))
    ⟨(exLarge_readable p).ids, (exLarge_readable p).values, (exLarge_readable p).texts⟩
    (oracle (exLarge p).sha {x} exAns fun _ => ⟨[0], by decide⟩) Ex.σ (exLargeOr p) hr.1 p (-1) hr.2.1 hr.2.2.1
    (exTelling p x (oracle (exLarge p).sha {x} exAns fun _ => ⟨[], by decide⟩)).1
    (exTelling p x (oracle (exLarge p).sha {x} exAns fun _ => ⟨[0], by decide⟩)).1 "m" "m" x (fun _ => by simp [exTelling]) (fun _ => by simp [exTelling])
    (exLargeOr_range p _ (by omega) (by omega)) (exLargeOr_range p _ (by omega) (by omega))
    (exTelling_accepted p hid hx hne fun _ => ⟨[], by decide⟩) (exTelling_accepted p hid hx hne fun _ => ⟨[0], by decide⟩)
    (hask _ _) (hask _ _) (by rw [h1]; simp only [rehash, h0]; simp [exLarge]) (by rw [h1]; simp only [rehash, h0]; simp [exLarge])

/-! The same disjunction, the second clause being an extended statement. -/

private abbrev exOrExt (p : Nat) : Stmt (ZMod p) :=
  .or false [.leaf (.dlrep (exBig p 0)), .leaf (.ext ⟨exBigSpec p 2, false, .none, none, none⟩)]

private abbrev exOrPre (p : Nat) : Val (ZMod p) := .list [.none, .int 0]

private def exOrNow (p : Nat) : Stmt (ZMod p) :=
  match digestPrecommitment Ex.σ (Tree.freshVerifier (exOrExt p)) (exOrPre p) with
  | .ok t => t
  | .error _ => exOrExt p

private theorem exOrNow_digested (p : Nat) {S k} (hd : DigestedTop Ex.σ (exOrExt p) (exOrPre p) S k) : k = exLargeOr p := by
  have hd := digestedTop_digested hd
  generalize ht : exOrExt p = t' at hd
  generalize hv : exOrPre p = v' at hd
  cases hd with
  | bare k => simp at hv
  | rep => simp at ht
  | ext => simp at ht
  | all => simp at ht
  | any b subs v' vi Ss ks hv' hS hk hvi h =>
    simp only [Tree.or.injEq] at ht
    obtain ⟨rfl, rfl⟩ := ht
    match Ss, ks, hS, hk, h with
    | [S1, S2], [k1, k2], _, _, h =>
      obtain ⟨rfl, _⟩ := digested_rep (h 0 _ _ _ rfl rfl rfl)
      obtain ⟨a2, _⟩ := digested_ext (h 1 _ _ _ rfl rfl rfl)
      cases a2
      rfl

private def exTellingExt (p : Nat) (x : List UInt8) (f : List UInt8 → List UInt8) : NIZK (ZMod p) × String :=
  (⟨((f x).length % 7 : Nat), exBigAns p ((f x).length % 7 : Nat), exOrPre p, []⟩, "m")

private theorem exOrExt_asked (p : Nat) [NeZero p] : ∃ id x, Tree.proofId Ex.σ (exOrNow p) = .ok id ∧
    (exLarge p).challengeInput id (exOrPre p) (exBigCom p) "m" = .ok x ∧ (exLarge p).idBytes id ≠ x ∧
    ∀ (c : Int) (h : List UInt8), asked (exLarge p) Ex.σ (exOrExt p) ⟨c, exBigAns p c, exOrPre p, h⟩ "m" = .ok x := by
  obtain ⟨id, hid⟩ : ∃ id, Tree.proofId Ex.σ (exOrNow p) = .ok id := ⟨_, rfl⟩
  have hx : (exLarge p).challengeInput id (exOrPre p) (exBigCom p) "m" = .ok _ := rfl
  refine ⟨id, _, hid, hx, question_ne (exLarge_readable p) (by simp [exBigCom]) hx, fun c h => ?_⟩
  have h1 : digestPrecommitment Ex.σ (Tree.freshVerifier (exOrExt p)) (exOrPre p) = .ok (exOrNow p) := rfl
  have h2 : Tree.recompute (exOrNow p) c (exBigAns p c) = Tree.recompute (exLargeOr p) c (exBigAns p c) := rfl
  unfold asked
  simp only [h1, bind_ok, hid, h2, (recompute_iff _ _ _ _).mpr (exLargeOr_run p c).2, hx]

private theorem exTellingExt_accepted (p : Nat) [NeZero p] {id : PId (ZMod p)} {x : List UInt8}
    (hid : Tree.proofId Ex.σ (exOrNow p) = .ok id)
    (hx : (exLarge p).challengeInput id (exOrPre p) (exBigCom p) "m" = .ok x) (hne : (exLarge p).idBytes id ≠ x)
    (H : {y // y ∈ ({x} : Finset (List UInt8))} → {a // a ∈ exAns}) :
    verify (rehash (exLarge p) (oracle (exLarge p).sha {x} exAns H)) Ex.σ (exOrExt p)
      (exTellingExt p x (oracle (exLarge p).sha {x} exAns H)).1 (exTellingExt p x (oracle (exLarge p).sha {x} exAns H)).2 = .ok true := by
  have h7 : ∀ a ∈ exAns, a.length < 7 := by decide +kernel
  set f := oracle (exLarge p).sha {x} exAns H with hf
  have hfx : (f x).length < 7 := h7 _ (by simp [hf, oracle])
  have hdig : (rehash (exLarge p) f).digest id = [] := by
    show f ((exLarge p).idBytes id) = []
    have hn : (exLarge p).idBytes id ∉ ({x} : Finset (List UInt8)) := by simpa using hne
    simp only [hf, oracle, dif_neg hn]
    rfl
  have hfs : (rehash (exLarge p) f).fiatShamir id (exOrPre p) (exBigCom p) "m" = .ok ((f x).length : Int) := by
    have h1 : (rehash (exLarge p) f).challengeInput id (exOrPre p) (exBigCom p) "m" = .ok x := hx
    unfold Env.fiatShamir
    rw [h1]
    rfl
  obtain ⟨d', hd'⟩ := consistency_iff.mpr (exLargeOr_run p ((f x).length : Int)).1
  have h1 : digestPrecommitment Ex.σ (Tree.freshVerifier (exOrExt p)) (exOrPre p) = .ok (exOrNow p) := rfl
  have h2 : ∀ c, Tree.recompute (exOrNow p) c (exBigAns p c) = Tree.recompute (exLargeOr p) c (exBigAns p c) := fun _ => rfl
  have h3 : ∀ c, preVerification Ex.σ (exOrNow p) (exBigAns p c) = preVerification Ex.σ (exLargeOr p) (exBigAns p c) := fun _ => rfl
  simp only [exTellingExt, Nat.mod_eq_of_lt hfx]
  unfold verify checkStatement
  simp only [h1, bind_ok, hid, hdig, ne_eq, not_true_eq_false, if_false, h2, h3]
  unfold preVerification
  simp only [bind_ok, validate_core, hd', (recompute_iff _ _ _ _).mpr (exLargeOr_run p _).2, hfs, decide_true, if_true]

/-- With the question of `exOrExt_asked`. -/
example (p : Nat) [NeZero p] (hle : 2 ^ 129 ≤ p) (hp : p.Prime) (id : PId (ZMod p)) (x : List UInt8)
    (hid : Tree.proofId Ex.σ (exOrNow p) = .ok id)
    (hx : (exLarge p).challengeInput id (exOrPre p) (exBigCom p) "m" = .ok x) (hne : (exLarge p).idBytes id ≠ x)
    (hask : ∀ (c : Int) (h : List UInt8), asked (exLarge p) Ex.σ (exOrExt p) ⟨c, exBigAns p c, exOrPre p, h⟩ "m" = .ok x) :=
  C102_extended (fun _ X => (1 : ZMod p) = X (Ex.σ.key 2)) (fun sp => sp = exBigSpec p 2) (exLarge p) (exLarge_readable p) Ex.σ
    (fun sp hsp v k hk _ => by
      subst hsp
      cases hk
      refine ⟨rfl, fun X hX => ?_⟩
      cases hX with
      | rep _ _ _ h =>
        simpa [exBig] using h)
    (exOrExt p)
    (by
      refine .any _ _ (by simp) fun t ht => ?_
      simp only [List.mem_cons, List.not_mem_nil, or_false] at ht
      rcases ht with rfl | rfl
      · exact .leaf _ rfl
      · exact .leaf _ rfl) p hp (fun x => by simp) (bigFactors_of_prime hp hle) {x} exAns 1 1 1 (fun _ => {x}) (exTellingExt p x)
    ⟨fun _ => by simp, fun f g h => ⟨rfl, by simp only [exTellingExt, h x (by simp)]⟩⟩ (fun _ _ => by simp [exTellingExt])
    (fun _ => rfl)
    (fun f S k hd => by
      have := exOrNow_digested p hd
      subst this
      exact exLargeOr_range p _ (by omega) (by omega))
    (fun H y hy => by
      have := hask ((oracle (exLarge p).sha {x} exAns H x).length % 7 : Nat) []
      have := hy.symm.trans this
      cases this
      simp)
    (exAns_few p (by omega) p) (exAns_few _ (by omega) p)
    (by
      have : accepted (exLarge p) {x} exAns Ex.σ (exOrExt p) (exTellingExt p x) = 7 := by
        unfold accepted
        rw [Nat.card_congr (Equiv.subtypeUnivEquiv (exTellingExt_accepted p hid hx hne))]
        simp [Nat.card_eq_fintype_card]
        decide
      rw [this]
      simp
      decide)

end Zksk.Props
