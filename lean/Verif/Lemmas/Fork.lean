import Verif.SpecQuery
import Verif.Props.Statement
import Verif.Lemmas.Sound
import Verif.Lemmas.Prim

/-! Two proofs that ask the hash function the same question. -/

set_option linter.unusedSectionVars false

namespace Zksk

open Spec

variable {E : Type} [AddCommGroup E] [DecidableEq E]

theorem eqns_not_bytes {k : Core E} {c : Int} {r com : Val E} (h : Eqns k c r com) (b : List UInt8) :
    com ≠ .bytes b := by
  cases h <;> simp

theorem eqns_not_str {k : Core E} {c : Int} {r com : Val E} (h : Eqns k c r com) (b : String) : com ≠ .str b := by
  cases h <;> simp

/-- Simulated representations have no precommitment. -/
theorem simulate_dlrep_none {s : DLRep E} {d : Option (Dict Int)} {c : Option Int} {w w' : World} {tr : Sim E}
    (h : DLRep.simulate s d c w = .ok (tr, w')) : tr.precommitment = .none := by
  unfold DLRep.simulate at h
  obtain ⟨_, _, _, h⟩ := pm_bind.mp h
  obtain ⟨_, _, _, h⟩ := pm_bind.mp h
  rw [pm_getStore_bind, pm_liftE_bind_iff] at h
  obtain ⟨_, _, h⟩ := h
  rw [pm_liftE_bind_iff] at h
  obtain ⟨_, _, h⟩ := h
  rw [pm_pure_iff] at h
  simp only [Prod.mk.injEq] at h
  rw [← h.1]

theorem contentL_get : ∀ (l : List (Val E)) (i : Nat), (contentL l)[i]? = (l[i]?).map content
  | [], i => by simp [contentL]
  | v :: l, 0 => by simp [contentL]
  | v :: l, i + 1 => by simp [contentL, contentL_get l i]

/-- The content of a commitment determines it, for a given statement. -/
theorem eqns_content {k : Core E} {c : Int} {r com : Val E} (h : Eqns k c r com) :
    ∀ {c' : Int} {r' com' : Val E}, Eqns k c' r' com' → content com = content com' → com = com' := by
  have lists : ∀ (subs : List (Core E)) (coms coms' : List (Val E)), coms.length = subs.length → coms'.length = subs.length →
      (∀ (i : Nat) t com, subs[i]? = some t → coms[i]? = some com → ∀ com', coms'[i]? = some com' →
        content com = content com' → com = com') → contentL coms = contentL coms' → coms = coms' := by
    intro subs coms coms' h1 h2 h h3
    refine List.ext_getElem? fun i => ?_
    have h4 := congrArg (·[i]?) h3
    simp only [contentL_get] at h4
    cases hi : coms[i]? with
    | none =>
      rw [List.getElem?_eq_none_iff] at hi
      rw [List.getElem?_eq_none (by omega)]
    | some a =>
      have hlt := (List.getElem?_eq_some_iff.mp hi).1
      rw [hi, List.getElem?_eq_getElem (h2 ▸ h1 ▸ hlt)] at h4
      rw [List.getElem?_eq_getElem (h2 ▸ h1 ▸ hlt)]
      simp only [Option.map_some, Option.some.injEq] at h4
      rw [h i _ a (List.getElem?_eq_getElem (h1 ▸ hlt)) hi _ (List.getElem?_eq_getElem (h2 ▸ h1 ▸ hlt)) h4]
  induction h with
  | rep s c r vs ws hr hlen hws hgrp =>
    intro c' r' com' h' he
    cases h' with
    | rep _ _ _ vs' ws' hr' hlen' hws' hgrp' =>
      simp only [content, Val.pt.injEq] at he
      split at he
      · exact congrArg Val.pt he
      · simp only [Pt.mk.injEq, true_and] at he
        rw [he]
  | all sim subs c r coms ri hlen hri h ih =>
    intro c' r' com' h' he
    cases h' with
    | all _ _ _ _ coms' ri' hlen' hri' h' =>
      simp only [content, Val.list.injEq] at he
      rw [lists subs coms coms' hlen hlen' (fun i t com k1 k2 com' k3 => ih i t com k1 k2 (h' i t com' k1 k3)) he]
  | any sim subs c r rs cs coms ri hcs hrs hsum h1 h2 h3 h4 ih =>
    intro c' r' com' h' he
    cases h' with
    | any _ _ _ _ rs' cs' coms' ri' hcs' hrs' hsum' h1' h2' h3' h4' =>
      simp only [content, Val.list.injEq] at he
      have hi : ∀ (l : List Int) (i : Nat) t, subs.length ≤ l.length → subs[i]? = some t → ∃ x, l[i]? = some x := by
        intro l i t hl ht
        have := (List.getElem?_eq_some_iff.mp ht).1
        exact ⟨_, List.getElem?_eq_getElem (by omega)⟩
      rw [lists subs coms coms' h1 h1' (fun i t com k1 k2 com' k3 => by
        obtain ⟨x, hx⟩ := hi cs i t h2 k1
        obtain ⟨x', hx'⟩ := hi cs' i t h2' k1
        exact ih i t com x k1 k2 hx (h4' i t com' x' k1 k3 hx')) he]

/-- What acceptance of a proof means for the question asked. -/
theorem verify_asked {L : Type} [StmtOps E L] {env : Env E} {σ : Store} {t : Tree L} {nizk : NIZK E} {msg : String} {b : Bool}
    (h : verify env σ t nizk msg = .ok b) :
    ∃ t1 id com q, digestPrecommitment σ (Tree.freshVerifier t) nizk.precommitment = .ok t1 ∧
      Tree.proofId σ t1 = .ok id ∧ nizk.stmtHash = env.digest id ∧
      verifyResponse σ t1 com nizk.challenge nizk.responses = .ok true ∧
      env.challengeInput id nizk.precommitment com msg = .ok q ∧ asked env σ t nizk msg = .ok q ∧
      b = decide (nizk.challenge = env.toInt (env.sha q)) := by
  unfold verify at h
  obtain ⟨t1, h1, h⟩ := bind_ok_iff.mp h
  obtain ⟨id, h2, h⟩ := bind_ok_iff.mp h
  obtain ⟨_, h3, h⟩ := bind_ok_iff.mp h
  obtain ⟨com, h4, h⟩ := bind_ok_iff.mp h
  obtain ⟨c, h5, h10⟩ := bind_ok_iff.mp h
  replace h10 := Except.ok.inj h10
  unfold checkStatement at h2
  obtain ⟨id', h6, h2⟩ := bind_ok_iff.mp h2
  split at h2
  · cases h2
  · rename_i hh
    replace h2 := Except.ok.inj h2
    subst h2
    unfold Env.fiatShamir at h5
    obtain ⟨q, h7, h5⟩ := bind_ok_iff.mp h5
    have h8 : c = env.toInt (env.sha q) := (Except.ok.inj h5).symm
    refine ⟨t1, id', com, q, h1, h6, not_not.mp hh, ?_, h7, ?_, ?_⟩
    · unfold verifyResponse
      rw [h3, bind_ok, h4, bind_ok]
      simp
    · unfold asked
      rw [h1, bind_ok, h6, bind_ok, h4, bind_ok, h7]
    · rw [← h10, h8]

/-- Two accepted proofs that asked the same question. -/
theorem fork {L : Type} [StmtOps E L] {env : Env E} (henv : Readable env) (sha' : List UInt8 → List UInt8) {σ : Store}
    {t t1 : Tree L} {nizk nizk' : NIZK E} {msg msg' : String} {q : List UInt8}
    (hv : ∀ b, nizk.precommitment ≠ .bytes b) (hv' : ∀ b, nizk'.precommitment ≠ .bytes b)
    (hd : digestPrecommitment σ (Tree.freshVerifier t) nizk.precommitment = .ok t1)
    (hd' : digestPrecommitment σ (Tree.freshVerifier t) nizk'.precommitment = .ok t1)
    (hk : ∀ com c r, verifyResponse σ t1 com c r = .ok true →
      ∃ k : Core E, ∀ com c r, verifyResponse σ t1 com c r = verifyResponse σ k com c r)
    (h : verify env σ t nizk msg = .ok true) (h' : verify (rehash env sha') σ t nizk' msg' = .ok true)
    (hq : asked env σ t nizk msg = .ok q) (hq' : asked env σ t nizk' msg' = .ok q) :
    msg = msg' ∧ nizk.challenge = env.toInt (env.sha q) ∧ nizk'.challenge = env.toInt (sha' q) ∧
    ∃ com, verifyResponse σ t1 com nizk.challenge nizk.responses = .ok true ∧
      verifyResponse σ t1 com nizk'.challenge nizk'.responses = .ok true := by
  obtain ⟨t2, id, com, q1, e1, e2, _, e3, e4, e5, e6⟩ := verify_asked h
  obtain ⟨t2', id', com', q1', e1', e2', _, e3', e4', e5', e6'⟩ := verify_asked h'
  cases hd.symm.trans e1
  cases hd'.symm.trans e1'
  have hq'' : asked (rehash env sha') σ t nizk' msg' = .ok q := hq'
  cases hq.symm.trans e5
  cases hq''.symm.trans e5'
  obtain ⟨k, hk⟩ := hk _ _ _ e3
  have k1 := (verifyResponse_iff.mp ((hk _ _ _).symm.trans e3)).2
  have k2 := (verifyResponse_iff.mp ((hk _ _ _).symm.trans e3')).2
  obtain ⟨_, _, k3, k4⟩ := Props.C12_input_injective_partial env henv.ids henv.values henv.texts id id' _ _ com com' msg msg' q
    hv hv' (eqns_not_bytes k1) (eqns_not_bytes k2) e4 e4'
  have := eqns_content k1 k2 k3
  subst this
  exact ⟨k4, of_decide_eq_true e6.symm, of_decide_eq_true e6'.symm, com, e3, e3'⟩

theorem digest_core_same {σ : Store} {t t1 : Core E} {v : Val E}
    (h : digestPrecommitment σ (Tree.freshVerifier t) v = .ok t1) : t1 = t := by
  rw [fresh_core] at h
  rcases digest_core σ σ v (rfl : coreSkel t = coreSkel t) with ⟨e, h1, _⟩ | ⟨h1, _⟩
  · rw [h1] at h; cases h
  · rw [h1] at h; exact (Except.ok.inj h).symm

end Zksk
