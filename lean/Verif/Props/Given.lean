import Verif.Lemmas.Given
import Verif.Lemmas.ExtLeaf
import Verif.Lemmas.ExtCore
import Verif.Props.Complete

/-! # C75: commitments with randomizers given by the caller -/

set_option linter.unusedSectionVars false

namespace Zksk.Props

open Spec

variable {E : Type} [AddCommGroup E] [DecidableEq E]

/-- Helper: the verdict of the verifier. -/
private theorem accepted {σ : Store} {t : Core E} {c : Int} {r com : Val E} {ρ : Key → Val E}
    (he : Eqns (Tree.blank t) c r com) (ha : Agree σ (Tree.blank t) r ρ) :
    verifyResponse σ t com c r = .ok true ∧ Agree σ t r ρ := by
  obtain ⟨b1, b2⟩ := shape_blank (Tree.blank t) t (blank_blank t)
  have ha' : Agree σ t r ρ := agree_shape (f := id) ha t b1.symm (by
    rw [b2]; exact List.forall₂_same.mpr fun _ _ => rfl)
  refine ⟨?_, ha'⟩
  have hval : preVerification σ t r = .ok () := by
    unfold preVerification
    rw [validate_core, bind_ok]
    obtain ⟨d', hd'⟩ := consistency_iff.mpr ⟨ρ, ha'⟩
    rw [hd']; rfl
  unfold verifyResponse
  rw [hval, bind_ok, recompute_skel t (Tree.blank t) c r b1.symm, (recompute_iff _ _ _ _).mpr he, bind_ok]
  simp

/-- **C75** `commit(randomizers_dict)` with any dictionary, which may be empty, cover some of the secrets
or name secrets that do not occur: the prover commits, answers every challenge such that the verifier
accepts, and the answer for a secret outside disjunctions whose randomizer `m` the caller gave is
`x·c + m` modulo the order of the group. -/
theorem C75_given_randomizers (env : Env E) (t : Core E) (d K : Dict Int) (w : World) (X : Key → Int)
    (hs : Solid t) (ht : Torsion t) (hd : d.Uniq (heapFor w.store d t))
    (hX : Satisfied (heapFor w.store d t) d X t) (hc : Composable (heapFor w.store d t) t)
    (hK : K.Uniq (heapFor w.store d t)) :
    ∃ (p : CoreProver E) (t1 : Core E) (w1 w2 : World) (v com : Val E) (id : PId E) (p2 : CoreProver E),
      PTree.getProver t d w = .ok ((some p, t1), w1) ∧ PTree.precommit p w1 = .ok ((v, p), w1) ∧
      IsId (shape t) ((secrets t).map (heapFor w.store d t).name) id ∧
      PTree.commitGiven env p K w1 = .ok (((env.digest id, com), p2), w2) ∧
      ∀ c : Int, ∃ r w', PTree.computeResponse p2 c w2 = .ok (r, w') ∧
        verifyResponse (heapFor w.store d t) t com c r = .ok true ∧
        ∀ x y b m, Occ t r x y → (x, b) ∈ terms t → Dict.get? (heapFor w.store d t) K x = some m →
          y = .int ((X ((heapFor w.store d t).key x) * c + m) % (b.grp.order : Int)) := by
  obtain ⟨p, t1, w1, v, id, com, p2, w2, h1, h2, h3, h4, h5, h6, ⟨q, hq⟩, ρ, hρ, hr⟩ :=
    given_progress hs ht hd hX hc hK env
  rw [h3] at h4 h6 hq hρ hr
  refine ⟨p, t1, w1, w2, v, com, id, p2, h1, h2, (proofId_iff (skel_core _) (secretVars_core _)).mp h4, h5,
    fun c => ?_⟩
  obtain ⟨r, w', g1, -, g3, g4⟩ := hr q hq c w2 h6
  obtain ⟨a1, a2⟩ := accepted g3 g4
  refine ⟨r, w', g1, a1, fun x y b m ho hb hm => ?_⟩
  rw [occ_agree ho a2, hq x b (by rw [terms_blank]; exact hb), hρ K rfl x (by
    rw [(shape_blank (Tree.blank t) t (blank_blank t)).2]; exact mem_terms_secrets t hb) m hm]

/-- The example statement, with the randomizer of `x0` chosen to be 5 and the one of `x1` left to the
library, for all random draws: the answer for `x0` to a challenge `c` is `2c + 5`, in both places. -/
example (rng : Nat → Nat) : ∃ (p : CoreProver (ZMod 7)) (t1 : Core (ZMod 7)) (w1 w2 : World)
    (com : List UInt8 × Val (ZMod 7)) (p2 : CoreProver (ZMod 7)),
    PTree.getProver exTree exDict ⟨Ex.σ, rng⟩ = .ok ((some p, t1), w1) ∧
    PTree.commitGiven (Ex.env 0) p [(0, 5)] w1 = .ok ((com, p2), w2) ∧
    ∀ c : Int, ∃ r w', PTree.computeResponse p2 c w2 = .ok (r, w') ∧
      verifyResponse Ex.σ exTree com.2 c r = .ok true ∧
      ∀ y, Occ exTree r 0 y → y = .int ((2 * c + 5) % 7) := by
  obtain ⟨p, t1, w1, w2, v, com, id, p2, h1, -, -, h4, h5⟩ := C75_given_randomizers (Ex.env 0) exTree exDict
    [(0, 5)] ⟨Ex.σ, rng⟩ exVal exTree_solid exTree_torsion (by simp only [exDict, Dict.Uniq]; decide)
    (by simp only [exHeap]; exact exTree_satisfied) (by simp only [exHeap]; exact exTree_composable)
    (by simp only [Dict.Uniq]; decide)
  simp only [exHeap] at h5
  refine ⟨p, t1, w1, w2, _, p2, h1, h4, fun c => ?_⟩
  obtain ⟨r, w', g1, g2, g3⟩ := h5 c
  refine ⟨r, w', g1, g2, fun y hy => ?_⟩
  exact g3 0 y (Ex.P 1) 5 hy (by simp [exTree, terms, termsL, Ex.rep1]) (by decide)

/-- **C75** A randomizer that is used twice gives the secret away: if a prover commits twice with the same
dictionary and answers two challenges whose difference has the inverse `u` modulo the order of the group,
the secret is `u` times the difference of the two answers. -/
theorem C75_reuse_reveals (env : Env E) (t : Core E) (d K : Dict Int) (w w' : World) (X : Key → Int)
    (hs : Solid t) (ht : Torsion t) (hst : w'.store = w.store) (hd : d.Uniq (heapFor w.store d t))
    (hX : Satisfied (heapFor w.store d t) d X t) (hc : Composable (heapFor w.store d t) t)
    (hK : K.Uniq (heapFor w.store d t)) (p p' p2 p2' : CoreProver E) (t1 t1' : Core E)
    (w1 w1' w2 w2' w3 w3' : World) (com com' : List UInt8 × Val E) (c c' u : Int) (r r' : Val E)
    (hp : PTree.getProver t d w = .ok ((some p, t1), w1))
    (hcom : PTree.commitGiven env p K w1 = .ok ((com, p2), w2))
    (hr : PTree.computeResponse p2 c w2 = .ok (r, w3))
    (hp' : PTree.getProver t d w' = .ok ((some p', t1'), w1'))
    (hcom' : PTree.commitGiven env p' K w1' = .ok ((com', p2'), w2'))
    (hr' : PTree.computeResponse p2' c' w2' = .ok (r', w3'))
    (x : Sec) (b : Pt E) (y y' : Val E) (hb : (x, b) ∈ terms t) (hx : (Dict.get? (heapFor w.store d t) K x).isSome)
    (hy : Occ t r x y) (hy' : Occ t r' x y') (hu : u * (c - c') ≡ 1 [ZMOD b.grp.order]) :
    ∃ a a' : Int, y = .int a ∧ y' = .int a' ∧
      X ((heapFor w.store d t).key x) ≡ u * (a - a') [ZMOD b.grp.order] := by
  obtain ⟨m, hm⟩ := Option.isSome_iff_exists.mp hx
  have run : ∀ (w : World) (p p2 : CoreProver E) (t1 : Core E) (w1 w2 w3 : World) (com : List UInt8 × Val E)
      (c : Int) (r y : Val E), d.Uniq (heapFor w.store d t) → Satisfied (heapFor w.store d t) d X t →
      Composable (heapFor w.store d t) t → K.Uniq (heapFor w.store d t) →
      Dict.get? (heapFor w.store d t) K x = some m →
      PTree.getProver t d w = .ok ((some p, t1), w1) → PTree.commitGiven env p K w1 = .ok ((com, p2), w2) →
      PTree.computeResponse p2 c w2 = .ok (r, w3) → Occ t r x y →
      y = .int ((X ((heapFor w.store d t).key x) * c + m) % (b.grp.order : Int)) := by
    intro w p p2 t1 w1 w2 w3 com c r y hd hX hc hK hm hp hcom hr hy
    obtain ⟨q, s1, v1, v2, v, cm, id, q2, g1, -, -, g4, g5⟩ := C75_given_randomizers env t d K w X hs ht hd hX hc hK
    rw [hp] at g1; injection g1 with g1; injection g1 with g1 e1; injection g1 with g1 _; injection g1 with g1
    subst g1; subst e1
    rw [hcom] at g4; injection g4 with g4; injection g4 with g4 e2; injection g4 with _ g4
    subst g4; subst e2
    obtain ⟨r1, _, k1, -, k3⟩ := g5 c
    rw [hr] at k1; injection k1 with k1; injection k1 with k1 _
    subst k1
    exact k3 x y b m hy hb hm
  refine ⟨_, _, run w p p2 t1 w1 w2 w3 com c r y hd hX hc hK hm hp hcom hr hy,
    run w' p' p2' t1' w1' w2' w3' com' c' r' y' (hst ▸ hd) (hst ▸ hX) (hst ▸ hc) (hst ▸ hK) (hst ▸ hm)
      hp' hcom' hr' hy', ?_⟩
  rw [hst]
  generalize X ((heapFor w.store d t).key x) = z
  have e : (z * c + m) % (b.grp.order : Int) - (z * c' + m) % (b.grp.order : Int) ≡ z * (c - c')
      [ZMOD b.grp.order] := by
    have h1 := (Int.mod_modEq (z * c + m) b.grp.order).sub (Int.mod_modEq (z * c' + m) b.grp.order)
    rwa [show z * c + m - (z * c' + m) = z * (c - c') by ring] at h1
  have h2 := (hu.mul_left z).symm
  rw [mul_one, show z * (u * (c - c')) = u * (z * (c - c')) by ring] at h2
  exact h2.trans (e.symm.mul_left u)

/-- Two runs on `6 = x0·3` with the randomizer 5, and challenges 1 and 3: the answers are 0 and 4, and
`3 · (0 - 4) = -12` is the secret 2 modulo 7. -/
example (rng rng' : Nat → Nat) : ∃ (p p' p2 p2' : CoreProver (ZMod 7)) (t1 t1' : Core (ZMod 7))
    (w1 w1' w2 w2' w3 w3' : World) (com com' : List UInt8 × Val (ZMod 7)),
    PTree.getProver (.leaf Ex.rep2) exDict ⟨Ex.σ, rng⟩ = .ok ((some p, t1), w1) ∧
    PTree.commitGiven (Ex.env 0) p [(0, 5)] w1 = .ok ((com, p2), w2) ∧
    PTree.computeResponse p2 1 w2 = .ok (.list [.int 0], w3) ∧
    PTree.getProver (.leaf Ex.rep2) exDict ⟨Ex.σ, rng'⟩ = .ok ((some p', t1'), w1') ∧
    PTree.commitGiven (Ex.env 0) p' [(0, 5)] w1' = .ok ((com', p2'), w2') ∧
    PTree.computeResponse p2' 3 w2' = .ok (.list [.int 4], w3') ∧
    exVal (Ex.σ.key 0) ≡ 3 * (0 - 4) [ZMOD 7] ∧ (3 : Int) * (1 - 3) ≡ 1 [ZMOD 7] :=
  ⟨_, _, _, _, _, _, _, _, _, _, _, _, _, _, rfl, rfl, rfl, rfl, rfl, rfl, by decide, by decide⟩

/-- **C75** An empty dictionary is the same as no dictionary. -/
theorem C75_empty (env : Env E) (p : CoreProver E) (hs : Solid (PTree.stmtOf p)) :
    PTree.commitGiven env p [] = PTree.commit env p := by
  unfold PTree.commitGiven PTree.commit
  rw [commit_empty p hs]

example (env : Env (ZMod 7)) (rng : Nat → Nat) : ∃ (p : CoreProver (ZMod 7)) (t1 : Core (ZMod 7)) (w1 : World),
    PTree.getProver (.and false [.leaf Ex.rep1, .leaf Ex.rep2]) exDict ⟨Ex.σ, rng⟩ =
      .ok ((some p, t1), w1) ∧ PTree.commitGiven env p [] = PTree.commit env p :=
  ⟨.and false [.leaf ⟨{ Ex.rep1 with simulated := true, secretValues := exDict }, exDict, none⟩,
    .leaf ⟨{ Ex.rep2 with simulated := true, secretValues := exDict }, exDict, none⟩], _, _, rfl,
    C75_empty env _ (by simp [PTree.stmtOf, PTree.stmtOfL, ProverOps.stmtOf, Solid, SolidL, Ex.rep1, Ex.rep2, Ex.P, Ex.G])⟩

/-- **C75** The randomizers of a disjunction are not taken from the dictionary. -/
theorem C75_or_ignores (env : Env E) (b : Bool) (i : Nat) (ts : List (Core E)) (p : CoreProver E)
    (sims : List (Sim E)) (K : Dict Int) :
    PTree.commitGiven env (.or b i ts p sims) K = PTree.commit env (.or b i ts p sims) := by
  unfold PTree.commitGiven PTree.commit
  simp only [PTree.internalCommit]

/-- **C76** `simulate_proof(responses_dict, challenge)` with any dictionary of responses, which may be
incomplete: it yields a transcript that the verifier accepts, with the challenge asked for, in which every
secret outside disjunctions has the response the caller gave. -/
theorem C76_given_responses (t : Core E) (K : Dict Int) (c : Option Int) (w : World) (hs : Solid t)
    (hK : K.Uniq w.store) :
    ∃ tr w', Tree.simulate t (some K) c w = .ok (tr, w') ∧ (∀ c0, c = some c0 → tr.challenge = c0) ∧
      verifyResponse w.store t tr.commitment tr.challenge tr.responses = .ok true ∧
      ∀ x y m, Occ t tr.responses x y → Dict.get? w.store K x = some m → y = .int m := by
  have hu : ∀ d0, some K = some d0 → d0.Uniq w.store := by rintro _ ⟨⟩; exact hK
  obtain ⟨tr, w', h1, -⟩ := simulate_progress t (good_of_solid t hs) (some K) c w hu
  obtain ⟨-, g1, g2, ρ, g3, g4⟩ := simulate_core t _ (core_blank t) ((wf_blank _).mpr (wf_of_solid hs)) hu h1
  obtain ⟨a1, a2⟩ := accepted g2 g4
  refine ⟨tr, w', h1, g1, a1, fun x y m ho hm => ?_⟩
  rw [occ_agree ho a2, g3 K rfl x (by
    rw [(shape_blank (Tree.blank t) t (blank_blank t)).2]; exact occ_secret ho) m hm]

/-- The example statement with its or-clause, without any values, the response for `x0` chosen to be 5. -/
example (rng : Nat → Nat) : ∃ tr w', Tree.simulate exTree (some [(0, 5)]) (some 2) ⟨Ex.σ0, rng⟩ = .ok (tr, w') ∧
    tr.challenge = 2 ∧ verifyResponse Ex.σ0 exTree tr.commitment 2 tr.responses = .ok true ∧
    ∀ y, Occ exTree tr.responses 0 y → y = .int 5 := by
  obtain ⟨tr, w', h1, h2, h3, h4⟩ := C76_given_responses exTree [(0, 5)] (some 2) ⟨Ex.σ0, rng⟩ exTree_solid
    (by simp only [Dict.Uniq]; decide)
  have h2 := h2 2 rfl
  rw [h2] at h3
  exact ⟨tr, w', h1, h2, h3, fun y hy => h4 0 y 5 hy rfl⟩

end Zksk.Props
