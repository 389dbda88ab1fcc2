import Verif.Props.Plan
import Verif.Props.ExtWitness

/-! # C97: an example with two signatures -/

set_option linter.unusedSectionVars false

namespace Zksk.Props

open Spec

/-- Either `6 = y·3`, marked as simulated, or a signature under `exPk` on the secrets 0, 1. -/
def exSigned (sig : Signature (ZMod 7)) : Stmt (ZMod 7) :=
  .or false [.leaf (.dlrep ⟨Ex.P 6, [Ex.P 3], [8], [], true⟩),
    ({ exBBS with signature := some sig } : BBS (ZMod 7)).stmt 1 false]

/-- The secrets that the proof of a signature makes for itself. -/
def exSigPriv (y : Sec) : Prop := y ∈ [4, 5, 6, 7]

private theorem signed_prover {sig : Signature (ZMod 7)} {m0 m1 : Int} {α : Int} {σ : Store}
    (hn : σ.name = exMsgs.name) (he : sig.e = 1) (hs : sig.s = 2) (hA : sig.A = ⟨exPairing.G1, α • 1⟩)
    (hv : sig.verify exPairing exPk [m0, m1] = .ok true) (h0 : σ.value 0 = some m0) (h1 : σ.value 1 = some m1) :
    LibProver 7 exSigPriv σ [(2, 1), (3, 2)] (exSigned sig) := by
  have hinj : ∀ x y : Sec, σ.name x = σ.name y → x = y := fun x y h => by rw [hn] at h; exact exMsgs_name h
  have hrep : ∀ {y : Sec} {s : DLRep (ZMod 7)},
      ¬ AtLeaf (leafWrites (libProfile exSigPriv)) (.leaf (.dlrep s) : Stmt (ZMod 7)) y := by
    rintro y s (⟨_, _, h⟩); exact h
  have l0 : LibLeaf 7 (updateSecretValues σ [(2, 1), (3, 2)]) [(2, 1), (3, 2)] exSigPriv false
      (.dlrep (⟨Ex.P 6, [Ex.P 3], [8], [], true⟩ : DLRep (ZMod 7))) := by
    refine .rep _ ⟨by decide, by decide, by decide, by decide⟩ ?_ ?_ ?_ (by simp)
    · intro x b h
      simp only [terms, List.zip_cons_cons, List.zip_nil_right, List.mem_singleton, Prod.mk.injEq] at h
      rw [h.2]; decide
    · intro x b h
      simp only [terms, List.zip_cons_cons, List.zip_nil_right, List.mem_singleton, Prod.mk.injEq] at h
      rw [h.2]; rfl
    · intro x hx
      simp only [List.map_nil, List.not_mem_nil, or_false, List.mem_singleton] at hx
      subst hx; unfold exSigPriv; decide
  have a3 : 3 ≤ exBBS.vars.length := by decide
  have a4 : exBBS.vars.length ≤ exBBS.pk.generators.length := by decide
  have a5 : (∀ y ∈ [exBBS.r1, exBBS.r2, exBBS.delta1, exBBS.delta2], exSigPriv y) ∧ ∀ y ∈ exBBS.vars, ¬ exSigPriv y := by
    unfold exSigPriv; decide
  have a6 : [exBBS.r1, exBBS.r2, exBBS.delta1, exBBS.delta2].Nodup := by decide
  obtain ⟨l, hl, k1, k2⟩ : ∃ l, ({ exBBS with signature := some sig } : BBS (ZMod 7)).stmt 1 false = .leaf l ∧
      (∀ p, LibLeaf 7 (updateSecretValues σ [(2, 1), (3, 2)]) [(2, 1), (3, 2)] exSigPriv p l) ∧
      ∀ p, LibHides 7 (updateSecretValues σ [(2, 1), (3, 2)]) exSigPriv p l := by
    refine ⟨_, rfl, fun p => .signature exPairing { exBBS with signature := some sig } 1 _ rfl rfl (by decide) rfl exKey.good
      exGood.tor exGood.tor0 a3 a4 a5 a6 fun _ => ⟨sig, [m0, m1], rfl, hv, ?_⟩,
      fun p => .signature exPairing { exBBS with signature := some sig } 1 _ rfl rfl rfl exKey.good a3 a4
        fun _ => ⟨sig, _, _, _, _, 3, 2, α, rfl, rfl, by decide, by decide, by decide, by decide, hA⟩⟩
    rw [he, hs]
    simp [exBBS, updateSecretValues, Store.setValue, h0, h1]
  unfold exSigned
  rw [hl]
  have two : ∀ {Q : Stmt (ZMod 7) → Prop} {a b : Stmt (ZMod 7)}, Q a → Q b → ∀ t ∈ [a, b], Q t := by
    intro Q a b ha hb t ht
    simp only [List.mem_cons, List.not_mem_nil, or_false] at ht
    rcases ht with rfl | rfl
    · exact ha
    · exact hb
  refine ⟨fun s => by simp, .any _ _ (by simp) (two (.leaf _ l0) (.leaf _ (k1 _))),
    .any _ ⟨_, List.mem_cons_of_mem _ (List.mem_cons_self ..), by cases hl; rfl⟩ ?_,
    .any _ _ (two (.leaf _) (.leaf _)) ?_, .any _ _ (two (.leaf _) (.leaf _)), ?_, (by unfold exSigPriv; decide),
    .any _ _ (by simp) (two (.leaf _ (.rep _)) (.leaf _ (k2 _))),
    .any _ ⟨_, List.mem_cons_of_mem _ (List.mem_cons_self ..), by cases hl; rfl⟩ ?_, fun x y _ _ => hinj x y⟩
  · refine two (Q := fun t => t.simulated = false → _) (fun h => by cases h) fun _ => .leaf _ (k1 _)
  · intro i j t u x hij ht hu ha hb
    match i, j with
    | 0, 0 => exact hij rfl
    | 1, 1 => exact hij rfl
    | 0, 1 => cases ht; exact hrep ha
    | 1, 0 => cases hu; exact hrep hb
    | i + 2, _ => simp at ht
    | _, j + 2 => simp at hu
  · refine ⟨?_, rfl, trivial⟩
    have : ¬ (updateSecretValues σ [(2, 1), (3, 2)]).key 3 = (updateSecretValues σ [(2, 1), (3, 2)]).key 2 := by
      intro h
      have := congrArg Prod.fst h
      rw [show ((updateSecretValues σ [(2, 1), (3, 2)]).key 3).1 = σ.name 3 from rfl,
        show ((updateSecretValues σ [(2, 1), (3, 2)]).key 2).1 = σ.name 2 from rfl] at this
      exact absurd (hinj _ _ this) (by decide)
    simp [Dict.get?, this]
  · refine two (Q := fun t => t.simulated = false → _) (fun h => by cases h) fun _ => .leaf _ (k2 _)

private theorem two_plan (a : Stmt (ZMod 7)) (l l' : Leaf (ZMod 7)) (ha : a.simulated = true)
    (hp : publicLeaf l' = publicLeaf l) (hs : (Tree.leaf l' : Stmt (ZMod 7)).simulated = (Tree.leaf l : Stmt (ZMod 7)).simulated) :
    SamePlan (.or false [a, .leaf l]) (.or false [a, .leaf l']) := by
  refine .any _ _ (by simp only [List.length_cons, List.length_nil]) ?_ ?_
  · intro i t t' ht ht'
    match i with
    | 0 => cases ht; cases ht'; exact ⟨rfl, rfl⟩
    | 1 => cases ht; cases ht'; exact ⟨congrArg Tree.leaf hp, hs⟩
    | i + 2 => simp at ht
  · intro i t t' ht ht' h
    match i with
    | 0 => cases ht; rw [ha] at h; cases h
    | 1 => cases ht; cases ht'; exact .leaf _ _ hp
    | i + 2 => simp at ht

private theorem signed_plan : SamePlan (exSigned exSig) (exSigned exSig') := by
  have h : ∀ s : Signature (ZMod 7), ∃ l, ({ exBBS with signature := some s } : BBS (ZMod 7)).stmt 1 false = .leaf l ∧
      (.leaf l : Stmt (ZMod 7)).simulated = false := fun s => ⟨_, rfl, rfl⟩
  obtain ⟨l, hl, hs⟩ := h exSig
  obtain ⟨l', hl', hs'⟩ := h exSig'
  have e : publicPart (.leaf l' : Stmt (ZMod 7)) = publicPart (.leaf l) := by
    rw [← hl, ← hl']
    exact (publicPart_bbs exBBS 1 false (some exSig')).trans (publicPart_bbs exBBS 1 false (some exSig)).symm
  unfold exSigned
  rw [hl, hl']
  exact two_plan _ l l' rfl (Tree.leaf.inj e) (hs'.trans hs.symm)

/-- **C97** The hypotheses of `C97_library` are met by the holders of a signature on 4, 6 and of another one on 5, 6. -/
example (env : Env (ZMod 7)) (c : Int) :
    SameResults 7 (honestRunStmt env (exSigned exSig) [(2, 1), (3, 2)] c) exMsgs
      (honestRunStmt env (exSigned exSig') [(2, 1), (3, 2)] c) exMsgs' :=
  (C97_library 7 exSigPriv env _ _ _ _ _ _ (by decide : Nat.Prime 7)
    (signed_prover (sig := exSig) (σ := exMsgs) (m0 := 4) (m1 := 6) (α := 1) rfl rfl rfl (by decide) (by decide) rfl rfl)
    (signed_prover (sig := exSig') (σ := exMsgs') (m0 := 5) (m1 := 6) (α := 4) rfl rfl rfl (by decide) (by decide) rfl rfl)
    signed_plan).1 c

end Zksk.Props
