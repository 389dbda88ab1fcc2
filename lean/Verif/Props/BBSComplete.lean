import Verif.Lemmas.BBSRun
import Verif.Props.ExtComplete

/-! # C57: completeness of proofs of BBS+ signatures -/

set_option linter.unusedSectionVars false

namespace Zksk.Props

open Spec

variable {E : Type} [AddCommGroup E] [DecidableEq E]

theorem ready_bbs (P : Pairing E) (s : BBS E) (sig : Signature E) (ms : List Int) (gen : E) (flag : Bool)
    (d : Dict Int) (w : World) (hP : s.P = P) (hk : GoodKey P s.pk) (hord : P.order ≠ 0)
    (htor : ∀ g ∈ s.pk.generators, (P.order : Int) • g.val = 0) (hh0 : (P.order : Int) • s.pk.h0.val = 0)
    (hsig : s.signature = some sig) (hms : ms ≠ []) (hfit : ms.length + 2 ≤ s.pk.generators.length)
    (hvalid : sig.verify P s.pk ms = .ok true)
    (hvals : s.vars.map (updateSecretValues w.store d).value = (sig.e :: sig.s :: ms).map some)
    (hnd : s.own.Nodup) (hpriv : ∀ x ∈ s.own, x ∉ s.vars) (hd : d.Uniq (updateSecretValues w.store d))
    (hda : ∀ e ∈ d, e.1 ∉ s.own) :
    Spec.Ready s.profile P.order (updateSecretValues w.store d) d BBS.isDict (s.stmt gen flag) := by
  have hlen : s.vars.length = ms.length + 2 := by simpa using congrArg List.length hvals
  have hpos := List.length_pos_iff.mpr hms
  refine ⟨.leaf _ ⟨.inr ?_, fun y hy => hy⟩, .leaf _ ?_, .leaf _ ?_, .leaf _, .leaf _, .leaf _, ?_, hd, ?_⟩
  · exact BBS.canSimulate hP hk hord (by omega) (by omega) gen _ (fun y hy => hy) _
  · exact BBS.canProve hP hk hord htor hh0 hsig hms hfit hvalid hvals hnd hpriv gen _ (fun y hy => hy)
      (fun y hy => hy) (fun y hy => hy) (told_of_uniq hd) hda
  · rintro y _ (⟨_, _, hy⟩)
    exact hy
  · rintro e he (⟨_, _, hy⟩)
    exact hda e he hy
  · rintro sp s' ⟨⟨c, hc⟩, _⟩; cases hc

theorem named_bbs {s : BBS E} {gen : E} {flag : Bool} {name : Sec → String}
    (h : ∀ x ∈ s.own ++ s.vars, ∀ y ∈ s.own ++ s.vars, name x = name y → x = y) :
    Named s.profile name (s.stmt gen flag) := by
  rintro y z (⟨_, _, hy⟩) (⟨_, _, hz⟩) e
  exact h y (List.mem_append.mpr hy) z (List.mem_append.mpr hz) e

/-- **C57** Let the prover have a signature that `verify_signature()` accepts on at least one message, the secrets
of the statement the values of `e`, `s` and the messages, and let the four secrets made by the statement be
different from each other and from those.  Then `prove()` succeeds for every message and every sequence of random
draws, and `verify()` of the result with the same message is `True`, for every verifier whose object has the same
public key and secrets, but whatever signature, say none.  The interactive protocol ends with acceptance, too. -/
theorem C57_complete (P : Pairing E) (env : Env E) (s : BBS E) (sig : Signature E) (ms : List Int) (gen : E)
    (flag : Bool) (d : Dict Int) (w : World) (msg : String) (hP : s.P = P) (hk : GoodKey P s.pk)
    (hord : P.order ≠ 0) (htor : ∀ g ∈ s.pk.generators, (P.order : Int) • g.val = 0)
    (hh0 : (P.order : Int) • s.pk.h0.val = 0) (hsig : s.signature = some sig) (hms : ms ≠ [])
    (hfit : ms.length + 2 ≤ s.pk.generators.length) (hvalid : sig.verify P s.pk ms = .ok true)
    (hvals : s.vars.map (updateSecretValues w.store d).value = (sig.e :: sig.s :: ms).map some)
    (hnd : [s.r1, s.r2, s.delta1, s.delta2].Nodup)
    (hpriv : ∀ x ∈ [s.r1, s.r2, s.delta1, s.delta2], x ∉ s.vars)
    (hd : d.Uniq (updateSecretValues w.store d)) (hda : ∀ e ∈ d, e.1 ∉ [s.r1, s.r2, s.delta1, s.delta2])
    (hnames : ∀ x ∈ [s.r1, s.r2, s.delta1, s.delta2] ++ s.vars, ∀ y ∈ [s.r1, s.r2, s.delta1, s.delta2] ++ s.vars,
      w.store.name x = w.store.name y → x = y) :
    ∃ nizk t' w', prove (LeafProver E) env (s.stmt gen flag) d msg w = .ok ((nizk, t'), w') ∧
      ∀ (σv : Store) (sigv : Option (Signature E)) (genv : E) (flagv : Bool),
        (∀ x ∈ [s.r1, s.r2, s.delta1, s.delta2] ++ s.vars, ∀ y ∈ [s.r1, s.r2, s.delta1, s.delta2] ++ s.vars,
          σv.name x = σv.name y → x = y) →
        verify env σv (({ s with signature := sigv } : BBS E).stmt genv flagv) nizk msg = .ok true ∧
        ∃ p t1 w1 w2, (PTree.getProver (s.stmt gen flag) d : PM (Option (StmtProver E) × Stmt E)) w =
            .ok ((some p, t1), w1) ∧
          sigmaProtocol env σv (({ s with signature := sigv } : BBS E).stmt genv flagv) p w1 = .ok (true, w2) := by
  have hr := ready_bbs P s sig ms gen flag d w hP hk hord htor hh0 hsig hms hfit hvalid hvals hnd hpriv hd hda
  have hleaf : ∀ e, s.stmt gen flag ≠ .leaf (.dlrep e) := by intro s'; unfold BBS.stmt; simp
  obtain ⟨nizk, t', w', h1, _, _, hval, h2⟩ := C54_proofs_accepted s.profile P.order BBS.isDict env (s.stmt gen flag)
    d w msg hleaf hr
  refine ⟨nizk, t', w', h1, fun σv sigv genv flagv hv => ⟨?_, ?_⟩⟩
  · exact (h2 σv _ (.leaf _ _ (BBS.leafFor hP hk gen genv σv sigv ..)) (named_bbs hnames) (named_bbs hv)).1
      (valid_of_made (fun sp v h => h.2) hval)
  · refine C54_protocol_accepts s.profile P.order BBS.isDict env (s.stmt gen flag) d w hleaf hr (fun sp v h => h.2) σv _
      (.leaf _ _ (BBS.leafFor hP hk gen genv σv sigv ..)) ?_ (named_bbs hnames) (named_bbs hv)
    intro e he v k hc
    cases he
    obtain ⟨_, _, _, _, _, _, _, _, _, _, _, _, _, _, _, _, _, rfl⟩ :=
      BBS.construct_inv (s := { s with signature := sigv }) hP hk hc
    exact ⟨_, _, rfl⟩

/-- The statement about `exSig` on the values 4, 6 of the secrets 0, 1, made without `binding`; the verifier has no
signature. -/
example (rng : Nat → Nat) (msg : String) : ∃ σ1 s, mkBBS exPairing exMsgs [0, 1] exPk (some exSig) false 2 = .ok (σ1, s) ∧
    ∃ nizk t' w', prove (LeafProver (ZMod 7)) (Ex.env 5) (s.stmt 1 false) [] msg ⟨σ1, rng⟩ = .ok ((nizk, t'), w') ∧
      verify (Ex.env 5) exMsgs (({ s with signature := none } : BBS (ZMod 7)).stmt 1 false) nizk msg = .ok true := by
  obtain ⟨σ1, s, h1, h2, h3, h4, h5, h6, h7, h8⟩ := C44_constructor exPairing exMsgs [0, 1] exPk exSig false 2 [4, 6]
    2 3 [0, 1] rfl (by decide) (by decide) (by decide) (by simp [exPk])
  refine ⟨σ1, s, h1, ?_⟩
  have hname : σ1.name = exMsgs.name := by
    have : mkBBS exPairing exMsgs [0, 1] exPk (some exSig) false 2 = .ok ((exMsgs.setValue 2 exSig.e).setValue 3 exSig.s, _) := rfl
    rw [this] at h1
    cases h1; rfl
  have hinj : ∀ x y, exMsgs.name x = exMsgs.name y → x = y := by
    intro x y h
    have := congrArg String.length h
    simpa [exMsgs] using this
  obtain ⟨nizk, t', w', g1, g2⟩ := C57_complete exPairing (Ex.env 5) s exSig [4, 6] 1 false [] ⟨σ1, rng⟩ msg h2
    (h3 ▸ exKey.good) (by decide) (by rw [h3]; decide) (by rw [h3]; decide) h4 (by simp) (by rw [h3]; decide)
    (by rw [h3]; decide) h6 h7 h8 (by simp [Dict.Uniq]) (by simp) (fun x _ y _ h => hinj x y (hname ▸ h))
  exact ⟨nizk, t', w', g1, (g2 exMsgs none 1 false fun x _ y _ h => hinj x y h).1⟩

end Zksk.Props
