import Verif.Lemmas.OracleRun
import Verif.Props.PretendProof
import Verif.Props.PretendStmt
import Verif.Props.Chance

/-! # Zero knowledge with random hash functions (C101) -/

set_option linter.unusedSectionVars false

namespace Zksk.Props

open Spec

variable {E : Type} [AddCommGroup E] [DecidableEq E]

/-- **C101** Let the answers of the hash function be random.  Somebody is shown a proof, and may then ask the hash function
as many questions as they like.  They say yes to proofs of the prover exactly as often as to proofs of an outsider who has
other numbers instead of the values of the secrets, but chooses the answer to one question: each case of the former goes with
`|Ans|` cases of the latter, one for each answer the outsider may be told.  `Q` are the questions with random answers; those of the outsider are among
them. -/
theorem C101_later (env : Env E) (henv : Readable env) (t u : Core E) (message : String) (M : Nat) (hM0 : M ≠ 0)
    (hM : ∀ x b, (x, b) ∈ terms t → b.grp.order ∣ M) (hs : Solid t) (ht : Torsion t)
    (hshape : shape u = shape t) (hsec : secrets u = secrets t)
    (σ σs : Store) (d d' : Dict Int) (X : Key → Int)
    (hd : d.Uniq (heapFor σ d t)) (hd' : d'.Uniq (heapFor σs d' u)) (hc : Composable (heapFor σ d t) t)
    (hsee : SeesSame (heapFor σ d t) (heapFor σs d' u) (secrets t))
    (hp : Informed (heapFor σ d t) d X (heapFor σs d' u) d' true t u) :
    ∃ N, ∀ n, N ≤ n → ∀ (rest : Nat → Nat) (Q Ans : Finset (List UInt8)), Ans.Nonempty →
      (∀ y : Fin n → Fin M, ∀ a ∈ Ans, ∀ π x w, pretendedProof env u d' a message ⟨σs, tape y rest⟩ = .ok ((π, x), w) → x ∈ Q) →
      ∀ D : (List UInt8 → List UInt8) → NIZK E → Prop,
      yesToPretended env Q Ans n M rest (fun _ h π => D h π) (fun env a => pretendedProof env u d' a message) σs =
        Ans.card * yesToProofs env Q Ans n M rest (fun _ h π => D h π) (fun env => prove (DLRepProver E) env t d message) σ := by
  have hp := (⟨hM0, hs, ht, hM, hshape, hsec, hd, hd', hc, hsee, hp⟩ : Ward.Pair M σ d X t σs d' u)
  obtain ⟨N, hN⟩ := Oracle.core_scene hp henv message
  exact ⟨N, fun n hn rest Q Ans hA hQ D => hN.later hn rest hA hQ fun _ _ _ _ => Iff.rfl⟩

/-- **C101** The same for somebody who has asked `k` questions before they are shown the proof.  The answer chosen by the
outsider may then be another one than they have got.  The numbers of cases differ by at most `k` in `B` of all cases, if, as in C98, a question of the prover is
a given one in at most one of `B` cases. -/
theorem C101_before (env : Env E) (henv : Readable env) (t u : Core E) (message : String) (M : Nat) (hM0 : M ≠ 0)
    (hM : ∀ x b, (x, b) ∈ terms t → b.grp.order ∣ M) (hs : Solid t) (ht : Torsion t)
    (hshape : shape u = shape t) (hsec : secrets u = secrets t)
    (σ σs : Store) (d d' : Dict Int) (X : Key → Int)
    (hd : d.Uniq (heapFor σ d t)) (hd' : d'.Uniq (heapFor σs d' u)) (hc : Composable (heapFor σ d t) t)
    (hsee : SeesSame (heapFor σ d t) (heapFor σs d' u) (secrets t))
    (hp : Informed (heapFor σ d t) d X (heapFor σs d' u) d' true t u)
    (B : Nat) (hB : 0 < B) (hfit : ∀ s, HasLeaf s t → Fits B M s) (hfresh : Always (Fresh B σ.name) t) :
    ∃ N, ∀ n, N ≤ n → ∀ (rest : Nat → Nat) (Q Ans : Finset (List UInt8)), Ans.Nonempty →
      (∀ y : Fin n → Fin M, ∀ a ∈ Ans, ∀ π x w, pretendedProof env u d' a message ⟨σs, tape y rest⟩ = .ok ((π, x), w) → x ∈ Q) →
      ∀ (k : Nat) (S : (List UInt8 → List UInt8) → Finset (List UInt8))
        (D : (List UInt8 → List UInt8) → (List UInt8 → List UInt8) → NIZK E → Prop), Observer k S D →
      B * yesToPretended env Q Ans n M rest D (fun env a => pretendedProof env u d' a message) σs ≤
        B * (Ans.card * yesToProofs env Q Ans n M rest D (fun env => prove (DLRepProver E) env t d message) σ) +
          k * (Ans.card ^ Q.card * Ans.card * M ^ n) ∧
      B * (Ans.card * yesToProofs env Q Ans n M rest D (fun env => prove (DLRepProver E) env t d message) σ) ≤
        B * yesToPretended env Q Ans n M rest D (fun env a => pretendedProof env u d' a message) σs +
          k * (Ans.card ^ Q.card * Ans.card * M ^ n) := by
  have hp := (⟨hM0, hs, ht, hM, hshape, hsec, hd, hd', hc, hsee, hp⟩ : Ward.Pair M σ d X t σs d' u)
  obtain ⟨N, hN⟩ := Oracle.core_scene hp henv message
  exact ⟨N, fun n hn rest Q Ans hA hQ k S D hD => hN.before hp.pos hn rest
    (fun x => Oracle.asks_seldom (Chance.coreKit hM0 hB σ.name) (Chance.coreMore σ.name) Chance.core_not_bytes hfit hfresh d rfl henv message x) hA hQ hD⟩

/-- **C101** The same for compositions with extended parts, with the hypotheses of C96. -/
theorem C101_later_stmt (F : Profile E) (q M : Nat) (Z : ExtSpec E → Val E → Prop) (env : Env E) (henv : Readable env)
    (message : String) (t u : Stmt E) (d d' : Dict Int) (σ σs : Store) (hM : M ≠ 0) (hq : q ∣ M)
    (ht : ∀ s, t ≠ .leaf (.dlrep s)) (h : Spec.Ready F q (updateSecretValues σ d) d Z t)
    (hb : EveryLeaf (LeafBlind M (updateSecretValues σ d) (updateSecretValues σs d')) t)
    (hl : ProvedLeaf (LeafHides F M (updateSecretValues σ d) (updateSecretValues σs d') d) t)
    (hu : Outsider (updateSecretValues σs d') d' t u) (hd' : d'.Uniq (updateSecretValues σs d'))
    (hn : Named F σ.name t) (hns : Named F σs.name t) :
    ∃ N, ∀ n, N ≤ n → ∀ (rest : Nat → Nat) (Q Ans : Finset (List UInt8)), Ans.Nonempty →
      (∀ y : Fin n → Fin M, ∀ a ∈ Ans, ∀ π x w, pretendedProofStmt env u d' a message ⟨σs, tape y rest⟩ = .ok ((π, x), w) → x ∈ Q) →
      ∀ D : (List UInt8 → List UInt8) → NIZK E → Prop,
      yesToPretended env Q Ans n M rest (fun _ h π => D h π) (fun env a => pretendedProofStmt env u d' a message) σs =
        Ans.card * yesToProofs env Q Ans n M rest (fun _ h π => D h π) (fun env => prove (LeafProver E) env t d message) σ := by
  have hp := (⟨hM, hq, ht, h, hb, hl, hu, hd', hn, hns⟩ : Clause.Pair F q M Z σ d t σs d' u)
  obtain ⟨N, hN⟩ := Oracle.stmt_scene hp henv message
  exact ⟨N, fun n hn rest Q Ans hA hQ D => hN.later hn rest hA hQ fun _ _ _ _ => Iff.rfl⟩

/-- **C101** The same for compositions with extended parts, and questions asked before. -/
theorem C101_before_stmt (F : Profile E) (q M : Nat) (Z : ExtSpec E → Val E → Prop) (env : Env E) (henv : Readable env)
    (message : String) (t u : Stmt E) (d d' : Dict Int) (σ σs : Store) (hM : M ≠ 0) (hq : q ∣ M)
    (ht : ∀ s, t ≠ .leaf (.dlrep s)) (h : Spec.Ready F q (updateSecretValues σ d) d Z t)
    (hb : EveryLeaf (LeafBlind M (updateSecretValues σ d) (updateSecretValues σs d')) t)
    (hl : ProvedLeaf (LeafHides F M (updateSecretValues σ d) (updateSecretValues σs d') d) t)
    (hu : Outsider (updateSecretValues σs d') d' t u) (hd' : d'.Uniq (updateSecretValues σs d'))
    (hn : Named F σ.name t) (hns : Named F σs.name t)
    (B : Nat) (hB : 0 < B) (hfit : ∀ l, HasLeaf l t → LeafFits B M σ.name l) (hfresh : Always (LeafFresh B σ.name) t) :
    ∃ N, ∀ n, N ≤ n → ∀ (rest : Nat → Nat) (Q Ans : Finset (List UInt8)), Ans.Nonempty →
      (∀ y : Fin n → Fin M, ∀ a ∈ Ans, ∀ π x w, pretendedProofStmt env u d' a message ⟨σs, tape y rest⟩ = .ok ((π, x), w) → x ∈ Q) →
      ∀ (k : Nat) (S : (List UInt8 → List UInt8) → Finset (List UInt8))
        (D : (List UInt8 → List UInt8) → (List UInt8 → List UInt8) → NIZK E → Prop), Observer k S D →
      B * yesToPretended env Q Ans n M rest D (fun env a => pretendedProofStmt env u d' a message) σs ≤
        B * (Ans.card * yesToProofs env Q Ans n M rest D (fun env => prove (LeafProver E) env t d message) σ) +
          k * (Ans.card ^ Q.card * Ans.card * M ^ n) ∧
      B * (Ans.card * yesToProofs env Q Ans n M rest D (fun env => prove (LeafProver E) env t d message) σ) ≤
        B * yesToPretended env Q Ans n M rest D (fun env a => pretendedProofStmt env u d' a message) σs +
          k * (Ans.card ^ Q.card * Ans.card * M ^ n) := by
  have hp := (⟨hM, hq, ht, h, hb, hl, hu, hd', hn, hns⟩ : Clause.Pair F q M Z σ d t σs d' u)
  obtain ⟨N, hN⟩ := Oracle.stmt_scene hp henv message
  exact ⟨N, fun n hn rest Q Ans hA hQ k S D hD => hN.before hp.pos hn rest
    (fun x => Oracle.asks_seldom (Chance.stmtKit hM hB σ.name) (Chance.stmtMore σ.name) Chance.stmt_not_bytes hfit hfresh d rfl henv message x) hA hQ hD⟩

/-- **C101** For the statements of the library. -/
theorem C101_library_later (q : Nat) (Priv : Sec → Prop) (env : Env E) (henv : Readable env) (message : String)
    (t u : Stmt E) (d d' : Dict Int) (σ σs : Store) (hq : q.Prime) (h : LibProver q Priv σ d t)
    (hu : Outsider (updateSecretValues σs d') d' t u) (hd' : d'.Uniq (updateSecretValues σs d'))
    (hns : Named (libProfile Priv) σs.name t) :
    ∃ N, ∀ n, N ≤ n → ∀ (rest : Nat → Nat) (Q Ans : Finset (List UInt8)), Ans.Nonempty →
      (∀ y : Fin n → Fin q, ∀ a ∈ Ans, ∀ π x w, pretendedProofStmt env u d' a message ⟨σs, tape y rest⟩ = .ok ((π, x), w) → x ∈ Q) →
      ∀ D : (List UInt8 → List UInt8) → NIZK E → Prop,
      yesToPretended env Q Ans n q rest (fun _ h π => D h π) (fun env a => pretendedProofStmt env u d' a message) σs =
        Ans.card * yesToProofs env Q Ans n q rest (fun _ h π => D h π) (fun env => prove (LeafProver E) env t d message) σ := by
  have hp := lib_pair hq h hu hd' hns
  obtain ⟨N, hN⟩ := Oracle.stmt_scene hp henv message
  exact ⟨N, fun n hn rest Q Ans hA hQ D => hN.later hn rest hA hQ fun _ _ _ _ => Iff.rfl⟩

/-- **C101** For the statements of the library, and questions asked before: the difference is at most `k` in `q` of all
cases, with the order `q` of the groups. -/
theorem C101_library_before (q : Nat) (Priv : Sec → Prop) (env : Env E) (henv : Readable env) (message : String)
    (t u : Stmt E) (d d' : Dict Int) (σ σs : Store) (hq : q.Prime) (h : LibProver q Priv σ d t)
    (hu : Outsider (updateSecretValues σs d') d' t u) (hd' : d'.Uniq (updateSecretValues σs d'))
    (hns : Named (libProfile Priv) σs.name t)
    (hfit : ∀ l, HasLeaf l t → LeafFits q q σ.name l) (hfresh : Always (LeafFresh q σ.name) t) :
    ∃ N, ∀ n, N ≤ n → ∀ (rest : Nat → Nat) (Q Ans : Finset (List UInt8)), Ans.Nonempty →
      (∀ y : Fin n → Fin q, ∀ a ∈ Ans, ∀ π x w, pretendedProofStmt env u d' a message ⟨σs, tape y rest⟩ = .ok ((π, x), w) → x ∈ Q) →
      ∀ (k : Nat) (S : (List UInt8 → List UInt8) → Finset (List UInt8))
        (D : (List UInt8 → List UInt8) → (List UInt8 → List UInt8) → NIZK E → Prop), Observer k S D →
      q * yesToPretended env Q Ans n q rest D (fun env a => pretendedProofStmt env u d' a message) σs ≤
        q * (Ans.card * yesToProofs env Q Ans n q rest D (fun env => prove (LeafProver E) env t d message) σ) +
          k * (Ans.card ^ Q.card * Ans.card * q ^ n) ∧
      q * (Ans.card * yesToProofs env Q Ans n q rest D (fun env => prove (LeafProver E) env t d message) σ) ≤
        q * yesToPretended env Q Ans n q rest D (fun env a => pretendedProofStmt env u d' a message) σs +
          k * (Ans.card ^ Q.card * Ans.card * q ^ n) := by
  have hp := lib_pair hq h hu hd' hns
  obtain ⟨N, hN⟩ := Oracle.stmt_scene hp henv message
  exact ⟨N, fun n hn rest Q Ans hA hQ k S D hD => hN.before hp.pos hn rest
    (fun x => Oracle.asks_seldom (Chance.stmtKit hq.ne_zero hq.pos σ.name) (Chance.stmtMore σ.name) Chance.stmt_not_bytes hfit hfresh d rfl henv message x) hA hQ hD⟩

/-! ### Cases that meet the hypotheses -/

/-- There are finitely many questions of an outsider. -/
theorem some_questions (make : List UInt8 → PM (NIZK E × List UInt8)) (σs : Store) (n M : Nat) (rest : Nat → Nat)
    (Ans : Finset (List UInt8)) : ∃ Q : Finset (List UInt8), ∀ y : Fin n → Fin M, ∀ a ∈ Ans, ∀ π x w,
      make a ⟨σs, tape y rest⟩ = .ok ((π, x), w) → x ∈ Q := by
  classical
  refine ⟨(Finset.univ ×ˢ Ans).image fun p : (Fin n → Fin M) × List UInt8 =>
    match make p.2 ⟨σs, tape p.1 rest⟩ with
    | .ok ((_, x), _) => x
    | .error _ => [], fun y a ha π x w h => ?_⟩
  refine Finset.mem_image.mpr ⟨(y, a), by simp [ha], ?_⟩
  simp only [h]

/-- Somebody who asks for the answer to `[1]`, then for the answer to this answer, and says yes if these answers are
others after the proof was shown, or if the challenge of the proof is 3. -/
example : Observer (E := ZMod 7) 2 (fun f => {[1], f [1]}) fun f h π => f [1] ≠ h [1] ∨ f (f [1]) ≠ h (f [1]) ∨ π.challenge = 3 :=
  ⟨fun _ => Finset.card_le_two, fun f g hs h π => by
    have h1 : g [1] = f [1] := hs _ (by simp)
    have h2 : g (f [1]) = f (f [1]) := hs _ (by simp)
    rw [h1, h2]⟩

/-- The disjunction of `1 = x0·1 + x1·2` and `5 = x2·3` in `ℤ/7ℤ`, as in C94. -/
example := have ⟨h1, h2, h3, h4, h5, h6, h7, h8, h9, h10, h11⟩ := exPretend_pair
  C101_later (Ex.lengthEnv [0]) (Ex.readable_lengthEnv _) _ _ "m" 7 h1 h4 h2 h3 h5 h6 _ _ _ _ _ h7 h8 h9 h10 h11

private theorem exOracle_fits : ∀ s, HasLeaf s (.or false [.leaf Ex.rep1, .leaf Ex.rep3] : Core (ZMod 7)) → Fits 7 7 s := by
  intro s hs
  cases hs with
  | any _ _ t ht h =>
    simp only [List.mem_cons, List.not_mem_nil, or_false] at ht
    rcases ht with rfl | rfl
    · cases h; exact Ex.fits _ rfl (by decide)
    · cases h; exact Ex.fits _ rfl (by decide)

private theorem exOracle_fresh : Always (Fresh 7 Ex.σ0.name) (.or false [.leaf Ex.rep1, .leaf Ex.rep3] : Core (ZMod 7)) := by
  refine .any _ _ fun t ht _ => ?_
  simp only [List.mem_cons, List.not_mem_nil, or_false] at ht
  rcases ht with rfl | rfl
  · refine .leaf _ ⟨0, 0, Ex.P 1, rfl, rfl, fun j y hj hy => ?_, Ex.multiples (by decide)⟩
    match j with
    | 0 => rfl
    | 1 =>
      have : y = 1 := by
        have := hj; simp [Ex.rep1] at this; exact this.symm
      subst this
      exact absurd hy (by decide)
    | j + 2 => simp [Ex.rep1] at hj
  · refine .leaf _ ⟨0, 2, Ex.P 3, rfl, rfl, fun j y hj hy => ?_, Ex.multiples (by decide)⟩
    match j with
    | 0 => rfl
    | j + 1 => simp [Ex.rep3] at hj

example := have ⟨h1, h2, h3, h4, h5, h6, h7, h8, h9, h10, h11⟩ := exPretend_pair
  C101_before (Ex.lengthEnv [0]) (Ex.readable_lengthEnv _) _ _ "m" 7 h1 h4 h2 h3 h5 h6 _ _ _ _ _ h7 h8 h9 h10 h11 7 (by decide)
    exOracle_fits exOracle_fresh

/-- The outsider's questions for the answers `[0]` and `[0, 0]`, and no others, get random answers. -/
example (n : Nat) (rest : Nat → Nat) := some_questions
  (fun a => pretendedProof (Ex.lengthEnv [0]) (.or false [.leaf Ex.rep1, .leaf Ex.rep3]) [(0, 0), (1, 0)] a "m") Ex.σ0 n 7 rest {[0], [0, 0]}

private theorem exOracle_lib_fits : ∀ l, HasLeaf l exEither → LeafFits 7 7 exLibStore.name l := by
  intro l hl
  generalize ht : exEither = t at hl
  cases hl with
  | leaf => cases ht
  | all => cases ht
  | any _ _ t1 ht1 h =>
    cases ht
    simp only [List.mem_cons, List.not_mem_nil, or_false] at ht1
    rcases ht1 with rfl | rfl
    · cases h with
      | all _ _ t2 ht2 h =>
        simp only [List.mem_cons, List.not_mem_nil, or_false] at ht2
        rcases ht2 with rfl | rfl
        · cases h; exact Ex.fits _ rfl (by decide)
        · generalize he : exBlindThree.stmt = t at h
          cases h with
          | leaf => cases he; exact Chance.range_fits exBlindThree _ _ rfl rfl ⟨dvd_rfl, dvd_rfl⟩
          | all => cases he
          | any => cases he
    · cases h with
      | all _ _ t2 ht2 h =>
        simp only [List.mem_cons, List.not_mem_nil, or_false] at ht2
        rcases ht2 with rfl | rfl
        · cases h; exact Ex.fits _ rfl (by decide)
        · generalize he : exLibNe.stmt = t at h
          cases h with
          | leaf => cases he; exact Chance.ne_fits exLibNe _ _ rfl rfl ⟨dvd_rfl, dvd_rfl⟩ ⟨dvd_rfl, dvd_rfl⟩
          | all => cases he
          | any => cases he

private theorem exOracle_lib_fresh : Always (LeafFresh 7 exLibStore.name) exEither := by
  refine .any _ _ fun t ht hs => ?_
  simp only [List.mem_cons, List.not_mem_nil, or_false] at ht
  rcases ht with rfl | rfl
  · cases hs
  · refine .all _ _ _ (List.mem_cons_self ..) (.leaf _ ⟨0, 7, Ex.P 1, rfl, rfl, fun j y hj hy => ?_, Ex.multiples (by decide)⟩)
    match j with
    | 0 => rfl
    | 1 =>
      have : y = 8 := by
        have := hj; simp at this; exact this.symm
      subst this
      exact absurd hy (by decide)
    | j + 2 => simp at hj

/-- The disjunction `exEither` of C96, with a range proof and an inequality. -/
example (b : Bool) := C101_library_later 7 exLibPriv (Ex.lengthEnv [0]) (Ex.readable_lengthEnv _) "m" _ _ _ _ exLibStore
  ⟨exNeStore.name, fun _ => none⟩ (by decide : Nat.Prime 7) (exEither_prover b) exEither_outsider (exEither_pair b).uniq'
  (exEither_pair b).named'

example (b : Bool) := C101_library_before 7 exLibPriv (Ex.lengthEnv [0]) (Ex.readable_lengthEnv _) "m" _ _ _ _ exLibStore
  ⟨exNeStore.name, fun _ => none⟩ (by decide : Nat.Prime 7) (exEither_prover b) exEither_outsider (exEither_pair b).uniq'
  (exEither_pair b).named' exOracle_lib_fits exOracle_lib_fresh

example (b : Bool) := have ⟨h1, h2, h3, h4, h5, h6, h7, h8, h9, h10⟩ := exEither_pair b
  C101_later_stmt _ 7 7 _ (Ex.lengthEnv [0]) (Ex.readable_lengthEnv _) "m" _ _ _ _ _ _ h1 h2 h3 h4 h5 h6 h7 h8 h9 h10

example (b : Bool) := have ⟨h1, h2, h3, h4, h5, h6, h7, h8, h9, h10⟩ := exEither_pair b
  C101_before_stmt _ 7 7 _ (Ex.lengthEnv [0]) (Ex.readable_lengthEnv _) "m" _ _ _ _ _ _ h1 h2 h3 h4 h5 h6 h7 h8 h9 h10 7
    (by decide) exOracle_lib_fits exOracle_lib_fresh

end Zksk.Props
