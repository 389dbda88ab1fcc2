import Verif.Props.RangeInterview
import Verif.Props.OracleFork

/-! # Soundness of range proofs with a random hash function (C51) -/

set_option linter.unusedSectionVars false

namespace Zksk.Props

open Spec

variable {E : Type} [AddCommGroup E] [DecidableEq E]

/-- **C51** The same for proofs, if the hash function is random.  Let `g`, `h` be independent modulo their order `q`, a large prime.
Consider somebody who asks the hash function at most `k` questions, and then makes a proof for
`RangeStmt(com, g, h, a, b, x, r)`.  If the proof is accepted with more than the fraction `(k + 1) (β + γ) / |Ans|` of the
tables of answers, they know an opening of `com` to a number that is in `[a, b)` modulo `q`: two accepted proofs for tables
that differ in one answer have it.  Missing: as in `C51_interactive_partial`. -/
theorem C51_oracle_partial (env : Env E) (henv : Readable env) (σ0 σ1 σ : Store) (com g h : Pt E) (a b : Int) (x r : Sec)
    (next : Nat) (t : Stmt E) (hab : a < b) (hs : rangeStmt σ0 com g h a b x r next = .ok (σ1, t))
    (hind : ∀ m n : Int, m • g.val + n • h.val = 0 → (g.grp.order : Int) ∣ m)
    (hq : 4 * (b - a) ≤ g.grp.order) (hall : ∀ y : E, (g.grp.order : Int) • y = 0) (hp : Nat.Prime g.grp.order)
    (hbig : BigFactors g.grp.order) (Q Ans : Finset (List UInt8))
    (k β γ : Nat) (S : (List UInt8 → List UInt8) → Finset (List UInt8)) (out : (List UInt8 → List UInt8) → NIZK E × String)
    (hA : Attacker k S out) (hcan : ∀ f, content (out f).1.precommitment = (out f).1.precommitment)
    (hn : ∀ f i, i = 1 ∨ i = 2 → ∃ vi l es, (out f).1.precommitment.index i = .ok vi ∧ vi.lookup "Cs" = .ok l ∧ l.elems = .ok es ∧
      es.length = rangeBits a b)
    (hr : ∀ f S k, Digested σ t (out f).1.precommitment S k → InRange k (out f).1.responses)
    (hQ : ∀ H y, asked env σ t (out (oracle env.sha Q Ans H)).1 (out (oracle env.sha Q Ans H)).2 = .ok y → y ∈ Q)
    (hβ : ∀ c : Int, Nat.card {a // a ∈ Ans ∧ env.toInt a % (g.grp.order : Int) = c} ≤ β)
    (hγ : ∀ c : Int, Nat.card {a // a ∈ Ans ∧ env.toInt a % 2 ^ 128 = c} ≤ γ)
    (hmany : (k + 1) * (β + γ) * Ans.card ^ Q.card < Ans.card * accepted env Q Ans σ t out) :
    ∃ H, ∃ z ∈ Q, ∃ c ∈ Ans, ∃ (f f' : List UInt8 → List UInt8) (u X R y : Int),
      f = oracle env.sha Q Ans H ∧ f' = answering f z c ∧
      verify (rehash env f) σ t (out f).1 (out f).2 = .ok true ∧ verify (rehash env f') σ t (out f').1 (out f').2 = .ok true ∧
      u * (env.toInt (f z) - env.toInt c) % (g.grp.order : Int) = 1 % (g.grp.order : Int) ∧
      com.val = X • g.val + R • h.val ∧ a ≤ y ∧ y < b ∧ (g.grp.order : Int) ∣ X - y ∧
      ∀ y1 y2 : Int, Answered t (out f).1.responses x (.int y1) → Answered t (out f').1.responses x (.int y2) → X = u * (y1 - y2) := by
  have hv : ∀ f b, (out f).1.precommitment ≠ .bytes b := fun f b hb => by
    obtain ⟨vi, l, es, hi, hl, _⟩ := hn f 1 (.inl rfl)
    rw [hb] at hi
    simp only [Val.index] at hi
    split at hi <;> cases hi
    simp [Val.lookup] at hl
  by_contra hno
  refine absurd hmany (Nat.not_lt.mpr (Oracle.attack
    (fun a b => env.toInt a % (g.grp.order : Int) = env.toInt b % (g.grp.order : Int) ∨ env.toInt a % 2 ^ 128 = env.toInt b % 2 ^ 128) hA hQ
    (fun b _ => Oracle.near_or (hβ _) (hγ _)) fun H z hzQ c hc f f' hf hf' h1 h1' hz hz' => ?_))
  by_contra hne
  obtain ⟨hne, hne'⟩ := not_or.mp hne
  obtain ⟨u, hu⟩ := inverse_mod hp hne
  have e3 : f' z = c := by rw [hf']; simp [answering]
  have hpre := same_precommitment henv σ t hv hcan h1 h1' hz hz'
  obtain ⟨t1, _, _, _, d1, _⟩ := verify_asked h1
  obtain ⟨_, e1, e2, cm, h4, h5⟩ := fork (readable_rehash henv f) f' (hv f) (by rw [hpre]; exact hv f) d1 (by rw [hpre]; exact d1)
    (fun com c r hr => by
      obtain ⟨S, k, _, hk⟩ := verifyResponse_stmt d1 hr
      exact ⟨k, hk⟩) h1 h1' hz hz'
  obtain ⟨S, k, hdig, hk⟩ := verifyResponse_stmt d1 h4
  rw [hk] at h4 h5
  have hD := digestedTop_digested hdig
  obtain ⟨X, R, y, g1, g2, g3, g4, g5⟩ := range_extract hab hs hind hq hall hbig hD (hn f) (hr f S k hD) (hr f' S k (hpre ▸ hD))
    (u := u) (by rw [e1, e2]; exact e3 ▸ hu) (by rw [e1, e2]; exact e3 ▸ hne') h4 h5
  exact hno ⟨H, z, hzQ, c, hc, f, f', u, X, R, y, hf, hf', h1, h1', hu, g1, g2, g3, g4, g5⟩

/-- **C51** If `com` is a commitment to a number outside the range, the proof is accepted with at most this fraction of the
tables.  Missing: as in `C51_interactive_partial`. -/
theorem C51_oracle_outside_partial (env : Env E) (henv : Readable env) (σ0 σ1 σ : Store) (com g h : Pt E) (a b : Int) (x r : Sec)
    (next : Nat) (t : Stmt E) (hab : a < b) (hs : rangeStmt σ0 com g h a b x r next = .ok (σ1, t))
    (hind : ∀ m n : Int, m • g.val + n • h.val = 0 → (g.grp.order : Int) ∣ m)
    (hq : 4 * (b - a) ≤ g.grp.order) (hall : ∀ y : E, (g.grp.order : Int) • y = 0) (hp : Nat.Prime g.grp.order)
    (hbig : BigFactors g.grp.order) (X R : Int) (hcom : com.val = X • g.val + R • h.val)
    (hout : ∀ y : Int, a ≤ y → y < b → ¬ (g.grp.order : Int) ∣ X - y) (Q Ans : Finset (List UInt8))
    (k β γ : Nat) (S : (List UInt8 → List UInt8) → Finset (List UInt8)) (out : (List UInt8 → List UInt8) → NIZK E × String)
    (hA : Attacker k S out) (hcan : ∀ f, content (out f).1.precommitment = (out f).1.precommitment)
    (hn : ∀ f i, i = 1 ∨ i = 2 → ∃ vi l es, (out f).1.precommitment.index i = .ok vi ∧ vi.lookup "Cs" = .ok l ∧ l.elems = .ok es ∧
      es.length = rangeBits a b)
    (hr : ∀ f S k, Digested σ t (out f).1.precommitment S k → InRange k (out f).1.responses)
    (hQ : ∀ H y, asked env σ t (out (oracle env.sha Q Ans H)).1 (out (oracle env.sha Q Ans H)).2 = .ok y → y ∈ Q)
    (hβ : ∀ c : Int, Nat.card {a // a ∈ Ans ∧ env.toInt a % (g.grp.order : Int) = c} ≤ β)
    (hγ : ∀ c : Int, Nat.card {a // a ∈ Ans ∧ env.toInt a % 2 ^ 128 = c} ≤ γ) :
    Ans.card * accepted env Q Ans σ t out ≤ (k + 1) * (β + γ) * Ans.card ^ Q.card := by
  by_contra hmany
  obtain ⟨_, _, _, _, _, _, _, _, X', R', y, _, _, _, _, _, e, y1, y2, y3, _⟩ := C51_oracle_partial env henv σ0 σ1 σ com g h a b x r next t
    hab hs hind hq hall hp hbig Q Ans k β γ S out hA hcan hn hr hQ hβ hγ (by omega)
  exact hout y y1 y2 (range_unique hind hcom e y3)

/-! Examples: `1` is in `[0, 3)`, in the group of `Verif/Props/RangeInterview.lean`; `7` is not.  The answers are strings of
length 0 to 6, and the challenge is the length. -/

private instance : NeZero bigPrime := ⟨by decide⟩

private def bigEnv : Env Big where
  sha _ := []
  toInt h := h.length
  idBytes := Ex.encId
  encode v := Ex.enc (content v)
  utf8 := Ex.st

private theorem bigEnv_readable : Readable bigEnv :=
  ⟨fun a b x y h => by
      have := (Ex.encId_inj a b x y h).1
      rw [this], fun a b x y h => Ex.enc_inj _ _ x y h,
    fun a b h => (Ex.st_inj (x := []) (y := []) (by rw [List.append_nil, List.append_nil]; exact h)).1⟩

private def bigAnswers : Finset (List UInt8) := {[], [0], [0, 0], [0, 0, 0], [0, 0, 0, 0], [0, 0, 0, 0, 0], [0, 0, 0, 0, 0, 0]}

private theorem bigAnswers_few (M : Int) (hM : 7 ≤ M) (c : Int) :
    Nat.card {a // a ∈ bigAnswers ∧ bigEnv.toInt a % M = c} ≤ 1 := by
  have h : ∀ a ∈ bigAnswers, ∀ b ∈ bigAnswers, a.length = b.length → a = b := by decide +kernel
  have h7 : ∀ a ∈ bigAnswers, a.length < 7 := by decide +kernel
  have : Subsingleton {a // a ∈ bigAnswers ∧ bigEnv.toInt a % M = c} := ⟨fun a b => Subtype.ext (h _ a.2.1 _ b.2.1 (by
    have h1 : (a.1.length : Int) % M = (b.1.length : Int) % M := a.2.2.trans b.2.2.symm
    have := h7 _ a.2.1
    have := h7 _ b.2.1
    rw [Int.emod_eq_of_lt (by omega) (by omega), Int.emod_eq_of_lt (by omega) (by omega)] at h1
    omega))⟩
  exact Finite.card_le_one_iff_subsingleton.mpr this

/-- Somebody who knows `x = 1`, `r = 0` asks the question `z` and answers with all random numbers 0. -/
private def bigTelling (z : List UInt8) (f : List UInt8 → List UInt8) : NIZK Big × String :=
  (⟨((f z).length % 7 : Nat), bigAns ((f z).length % 7 : Nat), bigPre, []⟩, "m")

private theorem big_facts : ∃ t1 id z, digestPrecommitment exNoValues (Tree.freshVerifier bigStmt) bigPre = .ok t1 ∧
    Tree.proofId exNoValues t1 = .ok id ∧ bigEnv.challengeInput id bigPre bigCom "m" = .ok z ∧
    ∀ c : Fin 7, preVerification exNoValues t1 (bigAns c.val) = .ok () ∧ Tree.recompute t1 c.val (bigAns c.val) = .ok bigCom :=
  ⟨_, _, _, rfl, rfl, rfl, by decide +kernel⟩

private theorem big_accepted {t1 : Stmt Big} {id : PId Big} {z : List UInt8}
    (hd : digestPrecommitment exNoValues (Tree.freshVerifier bigStmt) bigPre = .ok t1) (hid : Tree.proofId exNoValues t1 = .ok id)
    (hz : bigEnv.challengeInput id bigPre bigCom "m" = .ok z)
    (hc : ∀ c : Fin 7, preVerification exNoValues t1 (bigAns c.val) = .ok () ∧ Tree.recompute t1 c.val (bigAns c.val) = .ok bigCom)
    (H : {y // y ∈ ({z} : Finset (List UInt8))} → {a // a ∈ bigAnswers}) :
    verify (rehash bigEnv (oracle bigEnv.sha {z} bigAnswers H)) exNoValues bigStmt
      (bigTelling z (oracle bigEnv.sha {z} bigAnswers H)).1 (bigTelling z (oracle bigEnv.sha {z} bigAnswers H)).2 = .ok true := by
  have h7 : ∀ a ∈ bigAnswers, a.length < 7 := by decide +kernel
  set f := oracle bigEnv.sha {z} bigAnswers H with hf
  have hfx : (f z).length < 7 := h7 _ (by simp [hf, oracle])
  have hne := question_ne bigEnv_readable (by simp [bigCom]) hz
  have hdig : (rehash bigEnv f).digest id = [] := by
    show f (bigEnv.idBytes id) = []
    have hn : bigEnv.idBytes id ∉ ({z} : Finset (List UInt8)) := by simpa using hne
    simp only [hf, oracle, dif_neg hn]
    rfl
  have hfs : (rehash bigEnv f).fiatShamir id bigPre bigCom "m" = .ok ((f z).length : Int) := by
    have h1 : (rehash bigEnv f).challengeInput id bigPre bigCom "m" = .ok z := hz
    unfold Env.fiatShamir
    rw [h1]
    rfl
  obtain ⟨c1, c2⟩ := hc ⟨_, hfx⟩
  simp only at c1 c2
  simp only [bigTelling, Nat.mod_eq_of_lt hfx]
  unfold verify checkStatement
  simp only [hd, bind_ok, hid, hdig, ne_eq, not_true_eq_false, if_false, c1, c2, hfs, decide_true]

private theorem big_asked {t1 : Stmt Big} {id : PId Big} {z : List UInt8}
    (hd : digestPrecommitment exNoValues (Tree.freshVerifier bigStmt) bigPre = .ok t1) (hid : Tree.proofId exNoValues t1 = .ok id)
    (hz : bigEnv.challengeInput id bigPre bigCom "m" = .ok z)
    (hc : ∀ c : Fin 7, preVerification exNoValues t1 (bigAns c.val) = .ok () ∧ Tree.recompute t1 c.val (bigAns c.val) = .ok bigCom)
    (f : List UInt8 → List UInt8) : asked bigEnv exNoValues bigStmt (bigTelling z f).1 (bigTelling z f).2 = .ok z := by
  have h := (hc ⟨(f z).length % 7, Nat.mod_lt _ (by decide)⟩).2
  simp only at h
  unfold asked
  simp only [bigTelling, hd, bind_ok, hid, h, hz]

private theorem big_count : ∀ i, i = 1 ∨ i = 2 → ∃ vi l es, bigPre.index i = .ok vi ∧ vi.lookup "Cs" = .ok l ∧ l.elems = .ok es ∧
    es.length = rangeBits 0 3 := by
  rintro i (rfl | rfl)
  · exact ⟨_, _, _, rfl, rfl, rfl, by decide⟩
  · exact ⟨_, _, _, rfl, rfl, rfl, by decide⟩

/-- With the values of `big_facts`. -/
example (t1 : Stmt Big) (id : PId Big) (z : List UInt8)
    (hd : digestPrecommitment exNoValues (Tree.freshVerifier bigStmt) bigPre = .ok t1) (hid : Tree.proofId exNoValues t1 = .ok id)
    (hz : bigEnv.challengeInput id bigPre bigCom "m" = .ok z)
    (hc : ∀ c : Fin 7, preVerification exNoValues t1 (bigAns c.val) = .ok () ∧ Tree.recompute t1 c.val (bigAns c.val) = .ok bigCom) :=
  C51_oracle_partial bigEnv bigEnv_readable exNoValues _ exNoValues (bigPt 1 0) (bigPt 1 0) (bigPt 0 1) 0 3 0 1 2 bigStmt (by decide) big_stmt
    big_ind (by decide +kernel) big_all bigPrime_prime (bigFactors_of_prime bigPrime_prime bigPrime_large) {z} bigAnswers 1 1 1
    (fun _ => {z}) (bigTelling z) ⟨fun _ => by simp, fun f g h => ⟨rfl, by simp only [bigTelling, h z (by simp)]⟩⟩
    (fun _ => rfl) (fun _ => big_count)
    (fun f S k hD => big_range rfl rfl rfl (fun c => bigPair_range true false c _ _ _ _) (fun c => bigPair_range false true c _ _ _ _) hD
      ⟨(f z).length % 7, by omega⟩)
    (fun H y hy => by
      rw [big_asked hd hid hz hc] at hy
      cases hy
      simp)
    (bigAnswers_few _ (by decide +kernel)) (bigAnswers_few _ (by decide +kernel))
    (by
      have : accepted bigEnv {z} bigAnswers exNoValues bigStmt (bigTelling z) = 7 := by
        unfold accepted
        rw [Nat.card_congr (Equiv.subtypeUnivEquiv (big_accepted hd hid hz hc))]
        simp [Nat.card_eq_fintype_card]
        decide
      rw [this]
      simp
      decide)

/-- Those who say that 7 is in `[0, 3)` and hope for the challenge 0, and ask nothing. -/
private def bigLying (_ : List UInt8 → List UInt8) : NIZK Big × String := (⟨0, bigAns 0, bigLie, []⟩, "m")

example (z : List UInt8) (hz : asked bigEnv exNoValues bigLieStmt ⟨0, bigAns 0, bigLie, []⟩ "m" = .ok z) :
    7 * accepted bigEnv {z} bigAnswers exNoValues bigLieStmt bigLying ≤ (0 + 1) * (1 + 1) * 7 ^ 1 :=
  C51_oracle_outside_partial bigEnv bigEnv_readable exNoValues (rangeStore exNoValues 0 3 0 2 3) exNoValues (bigPt 7 0) (bigPt 1 0) (bigPt 0 1)
    0 3 0 1 2 bigLieStmt (by decide) rfl big_ind (by decide +kernel) big_all bigPrime_prime
    (bigFactors_of_prime bigPrime_prime bigPrime_large) 7 0 (by decide +kernel)
    (by
      intro y h0 h3 hd
      have : (bigPrime : Int) ≤ 7 - y := Int.le_of_dvd (by omega) hd
      have h7 : (7 : Int) < bigPrime := by decide +kernel
      omega) {z} bigAnswers 0 1 1 (fun _ => ∅) bigLying ⟨fun _ => by simp, fun _ _ _ => ⟨rfl, rfl⟩⟩ (fun _ => rfl)
    (by
      rintro f i (rfl | rfl)
      · exact ⟨_, _, _, rfl, rfl, rfl, by decide⟩
      · exact ⟨_, _, _, rfl, rfl, rfl, by decide⟩)
    (fun f S k hD => big_range rfl rfl rfl (fun c => bigPair_range true false c _ _ _ _) (fun c => bigPair_range false true c _ _ _ _) hD 0)
    (fun H y hy => by
      have := hy.symm.trans hz
      cases this
      simp)
    (bigAnswers_few _ (by decide +kernel)) (bigAnswers_few _ (by decide +kernel))

example : ∃ z, asked bigEnv exNoValues bigLieStmt ⟨0, bigAns 0, bigLie, []⟩ "m" = .ok z := by
  obtain ⟨t1, h1, ⟨id, h2⟩, h3, h4⟩ : ∃ t1, digestPrecommitment exNoValues (Tree.freshVerifier bigLieStmt) bigLie = .ok t1 ∧
      (∃ id, Tree.proofId exNoValues t1 = .ok id) ∧ Tree.recompute t1 0 (bigAns 0) = .ok bigCom ∧
      ∀ id, ∃ z, bigEnv.challengeInput id bigLie bigCom "m" = .ok z :=
    ⟨_, rfl, ⟨_, rfl⟩, by decide +kernel, fun _ => ⟨_, rfl⟩⟩
  obtain ⟨z, hz⟩ := h4 id
  exact ⟨z, by unfold asked; simp only [h1, bind_ok, h2, h3, hz]⟩

end Zksk.Props
