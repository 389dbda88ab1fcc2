import Verif.Lemmas.ChanceLib
import Verif.Props.Fork
import Verif.Props.BBSProof
import Verif.Props.Range
import Verif.Props.NotEqual

/-! # Commitments that cannot be predicted (C98) -/

set_option linter.unusedSectionVars false

namespace Zksk.Props

open Spec Chance

variable {E : Type} [AddCommGroup E] [DecidableEq E]

/-- **C98** Whatever commitment somebody expects: at most one in `q` of all blocks of random numbers lets an honest
prover send it.  The statement is a composition of representations; whichever clauses are proved, there is a
representation among them with a secret that occurs only once in it and whose base has at least `q` multiples. -/
theorem C98_commitments (env : Env E) (t : Core E) (d : Dict Int) (σ : Store) (q M : Nat) (hM : M ≠ 0) (hq : 0 < q)
    (hfit : ∀ s, HasLeaf s t → Fits q M s) (hfresh : Always (Fresh q σ.name) t) (v : Val E) :
    ∃ N, ∀ n, N ≤ n → ∀ (c : Int) (rest : Nat → Nat),
      q * Nat.card {y : Fin n → Fin M // ∃ u T w, honestRun env t d c ⟨σ, tape y rest⟩ = .ok ((u, T), w) ∧
        content T.commitment = v} ≤ M ^ n := by
  obtain ⟨N, hN⟩ := (upTo_seldom (coreKit hM hq σ.name) (coreMore σ.name) hfit hfresh d rfl v).count
  refine ⟨N, fun n hn c rest => le_trans (Nat.mul_le_mul_left _ ?_) (hN n hn rest)⟩
  refine Nat.card_mono (Set.toFinite _) ?_
  rintro y ⟨u, T, w, h, rfl⟩
  obtain ⟨a, w1, h1, h2⟩ := honestRun_upTo h
  exact ⟨a, w1, h1, by rw [h2]⟩

/-- **C98** The same for statements with extended parts. -/
theorem C98_commitments_stmt (env : Env E) (t : Stmt E) (d : Dict Int) (σ : Store) (q M : Nat) (hM : M ≠ 0) (hq : 0 < q)
    (hfit : ∀ l, HasLeaf l t → LeafFits q M σ.name l) (hfresh : Always (LeafFresh q σ.name) t) (v : Val E) :
    ∃ N, ∀ n, N ≤ n → ∀ (c : Int) (rest : Nat → Nat),
      q * Nat.card {y : Fin n → Fin M // ∃ u T w, honestRunStmt env t d c ⟨σ, tape y rest⟩ = .ok ((u, T), w) ∧
        content T.commitment = v} ≤ M ^ n := by
  obtain ⟨N, hN⟩ := (upTo_seldom (stmtKit hM hq σ.name) (stmtMore σ.name) hfit hfresh d rfl v).count
  refine ⟨N, fun n hn c rest => le_trans (Nat.mul_le_mul_left _ ?_) (hN n hn rest)⟩
  refine Nat.card_mono (Set.toFinite _) ?_
  rintro y ⟨u, T, w, h, rfl⟩
  obtain ⟨a, w1, h1, h2⟩ := honestRunStmt_upTo h
  exact ⟨a, w1, h1, by rw [h2]⟩

/-- **C98** Whatever questions `S` to the hash function somebody has thought of: if the answers to them, and only
these, are changed, then `prove()` does something else for at most `|S|` in `q` of all blocks of random numbers.  Hence the
answers an outsider chooses in C89, C94 and C96 are seldom noticed by honest provers.  The bytes of a statement alone
are not among the questions, their hash is computed in each proof. -/
theorem C98_questions (env : Env E) (henv : Readable env) (t : Core E) (d : Dict Int) (msg : String) (σ : Store) (q M : Nat)
    (hM : M ≠ 0) (hq : 0 < q) (hfit : ∀ s, HasLeaf s t → Fits q M s) (hfresh : Always (Fresh q σ.name) t)
    (sha' : List UInt8 → List UInt8) (S : Finset (List UInt8)) (hS : ∀ x, x ∉ S → sha' x = env.sha x)
    (hid : ∀ id, env.idBytes id ∉ S) :
    ∃ N, ∀ n, N ≤ n → ∀ rest : Nat → Nat,
      q * Nat.card {y : Fin n → Fin M // prove (DLRepProver E) env t d msg ⟨σ, tape y rest⟩ ≠
        prove (DLRepProver E) (rehash env sha') t d msg ⟨σ, tape y rest⟩} ≤ S.card * M ^ n :=
  questions_seldom (coreKit hM hq σ.name) (coreMore σ.name) core_not_bytes hfit hfresh d rfl henv hS hid msg

/-- **C98** The same for statements with extended parts. -/
theorem C98_questions_stmt (env : Env E) (henv : Readable env) (t : Stmt E) (d : Dict Int) (msg : String) (σ : Store) (q M : Nat)
    (hM : M ≠ 0) (hq : 0 < q) (hfit : ∀ l, HasLeaf l t → LeafFits q M σ.name l) (hfresh : Always (LeafFresh q σ.name) t)
    (sha' : List UInt8 → List UInt8) (S : Finset (List UInt8)) (hS : ∀ x, x ∉ S → sha' x = env.sha x)
    (hid : ∀ id, env.idBytes id ∉ S) :
    ∃ N, ∀ n, N ≤ n → ∀ rest : Nat → Nat,
      q * Nat.card {y : Fin n → Fin M // prove (LeafProver E) env t d msg ⟨σ, tape y rest⟩ ≠
        prove (LeafProver E) (rehash env sha') t d msg ⟨σ, tape y rest⟩} ≤ S.card * M ^ n :=
  questions_seldom (stmtKit hM hq σ.name) (stmtMore σ.name) stmt_not_bytes hfit hfresh d rfl henv hS hid msg

/-- **C98** A new `DLNotEqual` statement can be such a leaf: its private secrets have different names, and `g` has
at least `q` multiples. -/
theorem C98_notEqual (s : NotEqual E) (sim : Bool) (v : Val E) (b : Option (Core E)) (name : Sec → String) (q M : Nat)
    (hg : q ∣ s.g.grp.order ∧ s.g.grp.order ∣ M) (hh : q ∣ s.h.grp.order ∧ s.h.grp.order ∣ M) (hn : name s.alpha ≠ name s.beta)
    (hmul : ∀ k : Nat, 0 < k → k < q → k • s.g.val ≠ 0) :
    LeafFits q M name (.ext ⟨s.spec, sim, v, none, b⟩) ∧ LeafFresh q name (.ext ⟨s.spec, sim, v, none, b⟩) :=
  ⟨ne_fits s name _ rfl rfl hg hh, ne_fresh s name _ rfl hn hmul⟩

/-- **C98** A new `PowerTwoRangeStmt` statement can be such a leaf: `h` has at least `q` multiples. -/
theorem C98_range (s : PowerTwo E) (sim : Bool) (v : Val E) (b : Option (Core E)) (name : Sec → String) (q M : Nat)
    (hh : q ∣ s.h.grp.order ∧ s.h.grp.order ∣ M) (hmul : ∀ k : Nat, 0 < k → k < q → k • s.h.val ≠ 0) :
    LeafFits q M name (.ext ⟨s.spec, sim, v, none, b⟩) ∧ LeafFresh q name (.ext ⟨s.spec, sim, v, none, b⟩) :=
  ⟨range_fits s name _ rfl rfl hh, range_fresh s name _ rfl hmul⟩

/-- **C98** A new `BBSPlusSignatureStmt` statement can be such a leaf: its private secrets `r1` and `r2` have different
names, and the second generator has at least `q` multiples. -/
theorem C98_signature (s : BBS E) (gen : E) (sim : Bool) (v : Val E) (b : Option (Core E)) (name : Sec → String) (q M : Nat)
    (hk : GoodKey s.P s.pk) (ho : q ∣ s.P.order ∧ s.P.order ∣ M) (hn : name s.r1 ≠ name s.r2)
    (hmul : ∀ g, s.pk.generators[1]? = some g → ∀ k : Nat, 0 < k → k < q → k • g.val ≠ 0) :
    LeafFits q M name (.ext ⟨s.spec gen, sim, v, none, b⟩) ∧ LeafFresh q name (.ext ⟨s.spec gen, sim, v, none, b⟩) :=
  ⟨bbs_fits s gen name _ rfl rfl hk.g1 ho, bbs_fresh s gen name _ rfl hn hmul⟩

/-! ### Examples -/

theorem Ex.multiples {a : ZMod 7} (h : a ≠ 0) : ∀ k : Nat, 0 < k → k < 7 → k • a ≠ 0 := by
  have key : ∀ k : Fin 7, ∀ a : ZMod 7, a ≠ 0 → k.val ≠ 0 → k.val • a ≠ 0 := by decide
  exact fun k h0 h7 => key ⟨k, h7⟩ a h (Nat.pos_iff_ne_zero.mp h0)

theorem Ex.fits (s : DLRep (ZMod 7)) (h : s.secretVars.length = s.bases.length) (hb : ∀ b ∈ s.bases, b.grp.order = 7) :
    Fits 7 7 s := ⟨h, fun b h => by rw [hb b h]; exact ⟨dvd_rfl, dvd_rfl⟩⟩

/-- The conjunction of `1 = x0·1 + x1·2` with the disjunction of `6 = x0·3` and `5 = x2·3`. -/
def exChance : Core (ZMod 7) := .and false [.leaf Ex.rep1, .or false [.leaf Ex.rep2, .leaf Ex.rep3]]

theorem exChance_fits : ∀ s, HasLeaf s exChance → Fits 7 7 s := by
  intro s hs
  unfold exChance at hs
  cases hs with
  | all _ _ t ht h =>
    simp only [List.mem_cons, List.not_mem_nil, or_false] at ht
    rcases ht with rfl | rfl
    · cases h; exact Ex.fits _ rfl (by decide)
    · cases h with
      | any _ _ t ht h =>
        simp only [List.mem_cons, List.not_mem_nil, or_false] at ht
        rcases ht with rfl | rfl
        · cases h; exact Ex.fits _ rfl (by decide)
        · cases h; exact Ex.fits _ rfl (by decide)

theorem exChance_fresh : Always (Fresh 7 Ex.σ.name) exChance :=
  .all _ _ _ (List.mem_cons_self ..) (.leaf _ ⟨0, 0, Ex.P 1, rfl, rfl, fun j y hj hy => by
    match j with
    | 0 => rfl
    | 1 =>
      have : y = 1 := by
        have := hj; simp [Ex.rep1] at this; exact this.symm
      subst this
      exact absurd hy (by decide)
    | j + 2 => simp [Ex.rep1] at hj, Ex.multiples (by decide)⟩)

example (v : Val (ZMod 7)) := C98_commitments (Ex.env 5) exChance [(0, 2), (1, 3)] Ex.σ 7 7 (by decide) (by decide) exChance_fits
  exChance_fresh v

/-- The bound is met: of the 49 pairs of numbers exactly 7 lead to the commitment 4 of `1 = x0·1 + x1·2`. -/
example : (((List.range 7).flatMap fun a => (List.range 7).map fun b =>
      match honestRun (Ex.env 5) (.leaf Ex.rep1) [(0, 2), (1, 3)] 5 ⟨Ex.σ, fun i => if i = 0 then a else b⟩ with
      | .ok ((_, T), _) => decide (T.commitment = .pt (Ex.P 4))
      | .error _ => false).filter id).length = 7 := by decide +kernel

/-- Somebody who changes the answers to any two questions is noticed in at most two of seven cases. -/
example (l : List UInt8) (sha' : List UInt8 → List UInt8) (S : Finset (List UInt8)) (h2 : S.card = 2)
    (hS : ∀ x, x ∉ S → sha' x = l) (hid : ∀ id, (Ex.lengthEnv l).idBytes id ∉ S) :
    ∃ N, ∀ n, N ≤ n → ∀ rest : Nat → Nat, 7 * Nat.card {y : Fin n → Fin 7 //
      prove (DLRepProver (ZMod 7)) (Ex.lengthEnv l) exChance [(0, 2), (1, 3)] "m" ⟨Ex.σ, tape y rest⟩ ≠
        prove (DLRepProver (ZMod 7)) (rehash (Ex.lengthEnv l) sha') exChance [(0, 2), (1, 3)] "m" ⟨Ex.σ, tape y rest⟩} ≤ 2 * 7 ^ n := by
  rw [← h2]
  exact C98_questions (Ex.lengthEnv l) (Ex.readable_lengthEnv l) exChance [(0, 2), (1, 3)] "m" Ex.σ 7 7 (by decide) (by decide)
    exChance_fits exChance_fresh sha' S hS hid

/-- Without a secret that occurs only once the commitment may be known beforehand: that of `0 = x0·1 + x0·(-1)` is always 0. -/
example : ((List.range 7).all fun a =>
    match honestRun (Ex.env 5) (.leaf ⟨Ex.P 0, [Ex.P 1, Ex.P (-1)], [0, 0], [], false⟩) [(0, 2)] 5 ⟨Ex.σ, fun _ => a⟩ with
    | .ok ((_, T), _) => decide (T.commitment = .pt (Ex.P 0))
    | .error _ => false) = true := by decide +kernel

/-- An inequality, a range and a signature in a disjunction with a representation. -/
def exChanceStmt : Stmt (ZMod 7) :=
  .or false [(exNe true).stmt, (exRange true).stmt, exBBS.stmt 1 false, .leaf (.dlrep Ex.rep1)]

theorem exChanceStmt_leaf (name : Sec → String) (hname : Function.Injective name) (l : Leaf (ZMod 7)) (h : HasLeaf l exChanceStmt) :
    LeafFits 7 7 name l ∧ LeafFresh 7 name l := by
  have hne : ∀ {a b : Sec}, a ≠ b → name a ≠ name b := fun h e => h (hname e)
  unfold exChanceStmt at h
  cases h with
  | any _ _ t ht h =>
    simp only [List.mem_cons, List.not_mem_nil, or_false] at ht
    rcases ht with rfl | rfl | rfl | rfl
    · rw [hasLeaf_leaf h]
      exact C98_notEqual (exNe true) _ _ _ name 7 7 ⟨dvd_rfl, dvd_rfl⟩ ⟨dvd_rfl, dvd_rfl⟩ (hne (by decide)) (Ex.multiples (by decide))
    · rw [hasLeaf_leaf h]
      exact C98_range (exRange true) _ _ _ name 7 7 ⟨dvd_rfl, dvd_rfl⟩ (Ex.multiples (by decide))
    · rw [hasLeaf_leaf h]
      refine C98_signature exBBS 1 _ _ _ name 7 7 exKey.good ⟨dvd_rfl, dvd_rfl⟩ (hne (by decide)) fun g hg => ?_
      have : g = ⟨exPairing.G1, 3⟩ := by
        simp [exBBS, exPk] at hg; exact hg.symm
      subst this
      exact Ex.multiples (by decide)
    · rw [hasLeaf_leaf h]
      refine ⟨Ex.fits _ rfl (by decide), 0, 0, Ex.P 1, rfl, rfl, fun j y hj hy => ?_, Ex.multiples (by decide)⟩
      match j with
      | 0 => rfl
      | 1 =>
        have : y = 1 := by
          have := hj; simp [Ex.rep1] at this; exact this.symm
        subst this
        exact absurd (hname hy) (by decide)
      | j + 2 => simp [Ex.rep1] at hj

/-- Whichever of the clauses is proved. -/
example (σ : Store) (hσ : Function.Injective σ.name) (d : Dict Int) (v : Val (ZMod 7)) :=
  C98_commitments_stmt (Ex.env 5) exChanceStmt d σ 7 7 (by decide) (by decide) (fun l h => (exChanceStmt_leaf σ.name hσ l h).1)
    (.any _ _ fun t ht _ => by
      have : ∃ l, t = .leaf l := by
        simp only [List.mem_cons, List.not_mem_nil, or_false] at ht
        rcases ht with rfl | rfl | rfl | rfl <;> exact ⟨_, rfl⟩
      obtain ⟨l, rfl⟩ := this
      exact .leaf l (exChanceStmt_leaf σ.name hσ l (.any _ _ _ ht .leaf)).2) v

end Zksk.Props
