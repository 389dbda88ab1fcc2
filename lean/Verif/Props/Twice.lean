import Verif.Lemmas.Twice
import Verif.Lemmas.NotEqualRun
import Verif.Lemmas.SimRun
import Verif.Props.BBSComplete
import Verif.Props.NotEqualComplete
import Verif.Props.Complete

/-! # C90: a statement used twice in a conjunction -/

set_option linter.unusedSectionVars false

namespace Zksk.Props

open Spec

variable {E : Type} [AddCommGroup E] [DecidableEq E]

/-- **C90** (the part that holds) Let `t0` be made of representations by conjunction, and let the values given for
the secrets make it true.  Then `prove()` of `t0 & t0` succeeds for all random draws, and everybody who builds the
same statement accepts the proof. -/
theorem C90_representations_partial (env : Env E) (t0 t : Core E) (d : Dict Int) (w : World) (msg : String)
    (X : Key → Int) (q : Nat) (hand : opAnd t0 t0 = .ok t) (hfree : OrFree t0) (hs : Solid t0) (ht : Torsion t0)
    (ho : OneOrder q t0) (hd : d.Uniq (updateSecretValues w.store d))
    (hX : Satisfied (updateSecretValues w.store d) d X t0) :
    ∃ nizk t' w', prove (DLRepProver E) env t d msg w = .ok ((nizk, t'), w') ∧
      verify env w'.store t' nizk msg = .ok true ∧ verify env w'.store t nizk msg = .ok true ∧
      ∀ (σv : Store) (tv : Core E), shape tv = shape t →
        SeesAs (updateSecretValues w.store d) (secrets t) σv (secrets tv) → verify env σv tv nizk msg = .ok true := by
  have key : ∃ us, t = .and false us ∧ us ≠ [] ∧ (∀ u ∈ us, OrFree u) ∧ SolidL us ∧
      (∀ x b, (x, b) ∈ termsL us → (x, b) ∈ terms t0) ∧
      ∀ u ∈ us, Satisfied (updateSecretValues w.store d) d X u := by
    cases t0 with
    | or b us => cases hfree
    | leaf s =>
      have : t = .and false [.leaf s, .leaf s] := (Except.ok.inj hand).symm
      refine ⟨_, this, by simp, ?_, ⟨hs, hs, trivial⟩, ?_, ?_⟩
      · intro u hu
        simp only [List.mem_cons, List.not_mem_nil, or_false, or_self] at hu
        rw [hu]; exact hfree
      · intro x b h
        simpa [termsL] using h
      · intro u hu
        simp only [List.mem_cons, List.not_mem_nil, or_false, or_self] at hu
        rw [hu]; exact hX
    | and b us =>
      cases hfree with
      | all _ _ hf =>
      cases hX with
      | all _ hX =>
      have hne : us ++ us ≠ [] := by simp [hs.1]
      have hlen : 2 ≤ (us ++ us).length := by
        have := List.length_pos_iff.mpr hs.1
        simp only [List.length_append]; omega
      have : t = .and false (us ++ us) := by
        have h : mkAnd (us ++ us) = .ok t := hand
        unfold mkAnd at h
        rw [if_neg (by omega)] at h
        exact (Except.ok.inj h).symm
      refine ⟨_, this, hne, fun u hu => hf u (by simpa using hu), ?_, ?_, fun u hu => hX u (by simpa using hu)⟩
      · have happ : ∀ l l' : List (Core E), SolidL l → SolidL l' → SolidL (l ++ l') := by
          intro l
          induction l with
          | nil => intro l' _ h; exact h
          | cons a l ih => intro l' h h'; exact ⟨h.1, ih l' h.2 h'⟩
        exact happ _ _ hs.2 hs.2
      · intro x b h
        simp only [terms]
        rw [mem_termsL] at h ⊢
        obtain ⟨u, hu, hx⟩ := h
        exact ⟨u, by simpa using hu, hx⟩
  obtain ⟨us, rfl, hne, hf, hsol, hterms, hsat⟩ := key
  have hheap : heapFor w.store d (.and false us : Core E) = updateSecretValues w.store d :=
    heapFor_eq _ _ (by simp)
  rw [← hheap] at hd hsat
  obtain ⟨nizk, t', w', h1, h2, _, _, h3, h4⟩ := C49_prove_succeeds env (.and false us) d w msg X ⟨hne, hsol⟩
    (fun x b h => ht x b (hterms x b h)) hd (.all _ hsat)
    (composable_orFree (q := q) (.all _ _ hf) fun x b h => ho x b (hterms x b h))
  rw [hheap] at h2 h4
  refine ⟨nizk, t', w', h1, h3, ?_, h4⟩
  rw [h2]
  exact h4 _ _ rfl (seesAs_refl _ _)

/-- `x * 1 == 2` twice, with `x = 2`, modulo 7. -/
example (rng : Nat → Nat) : ∃ t nizk t' w', opAnd (.leaf ⟨Ex.P 2, [Ex.P 1], [0], [], false⟩ : Core (ZMod 7))
      (.leaf ⟨Ex.P 2, [Ex.P 1], [0], [], false⟩) = .ok t ∧
    prove (DLRepProver (ZMod 7)) (Ex.env 3) t [(0, 2)] "m" ⟨Ex.σ, rng⟩ = .ok ((nizk, t'), w') ∧
    verify (Ex.env 3) w'.store t nizk "m" = .ok true := by
  obtain ⟨nizk, t', w', h1, _, h2, _⟩ := C90_representations_partial (Ex.env 3)
    (.leaf ⟨Ex.P 2, [Ex.P 1], [0], [], false⟩ : Core (ZMod 7)) _ [(0, 2)] ⟨Ex.σ, rng⟩ "m" (fun _ => 2) 7 rfl (.rep _)
    ⟨rfl, by simp, by simp [Ex.P], by simp [Ex.P, Ex.G]⟩
    (by intro x b h; simp only [terms, List.zip_cons_cons, List.zip_nil_right, List.mem_singleton] at h; cases h; decide)
    (by intro x b h; simp only [terms, List.zip_cons_cons, List.zip_nil_right, List.mem_singleton] at h; cases h; rfl)
    ⟨rfl, trivial⟩ (.rep _ (by simp [given, Dict.get?]) (.rep _ _ (by simp [Ex.P]) (by decide)))
  exact ⟨_, nizk, t', w', rfl, h1, h2⟩

theorem leads_ne (s : NotEqual E) (hg : s.lhs0.grp = s.g.grp) (hh : s.lhs1.grp = s.h.grp) :
    Twice.Leads s.spec s.alpha s.g.grp.order := by
  intro σ v k hc
  have hc' : s.construct σ v = .ok k := hc
  obtain ⟨c, rfl⟩ : ∃ c, v = .pt c := by
    unfold NotEqual.construct at hc'
    obtain ⟨c, h, _⟩ := bind_ok_iff.mp hc'
    cases v <;> simp_all [Val.asPt]
  rw [NotEqual.construct_of hg hh] at hc'
  injection hc' with hc'
  subst hc'
  refine ⟨⟨s.g.grp.inf, [s.g, s.lhs0], [s.alpha, s.beta], knownValues σ [s.alpha, s.beta] [], false⟩, ⟨c, [s.h, s.lhs1], [s.alpha, s.beta], knownValues σ [s.alpha, s.beta] [], false⟩ ::
    if s.bind then [⟨s.lhs0, [s.g], [s.x], knownValues σ [s.x] [], false⟩] else [], ?_, ⟨_, rfl⟩, ⟨_, _, rfl, rfl⟩, rfl⟩
  unfold NotEqual.built
  cases s.bind <;> rfl

/-- **C90** is violated by the inequality of discrete logarithms.  Let `p` be a `DLNotEqual` statement over a group
of prime order `q`, `x` the value of its secret, not zero modulo `q`.  Whatever proof of `p & p` the honest prover
makes, if its first two random draws below `q` (one blinder for each use) differ and the challenge is not zero
modulo `q`, no verifier reaches a verdict: `verify()` raises an exception. -/
theorem C90_inequality_refused (env : Env E) (s : NotEqual E) (d : Dict Int) (w w' : World) (msg : String) (x : Int)
    (t t' : Stmt E) (nizk : NIZK E) (hq : s.g.grp.order.Prime) (hgrp : ∀ p ∈ [s.lhs0, s.lhs1, s.h], p.grp = s.g.grp)
    (hpriv : [s.x, s.alpha, s.beta].Nodup) (hx : (updateSecretValues w.store d).value s.x = some x)
    (hd : d.Uniq (updateSecretValues w.store d)) (hda : ∀ e ∈ d, e.1 ≠ s.alpha ∧ e.1 ≠ s.beta)
    (hand : opAnd s.stmt s.stmt = .ok t)
    (h : prove (LeafProver E) env t d msg w = .ok ((nizk, t'), w'))
    (hx0 : ¬ (s.g.grp.order : Int) ∣ x) (hdraws : w.rng 0 % s.g.grp.order ≠ w.rng 1 % s.g.grp.order)
    (hc : ¬ (s.g.grp.order : Int) ∣ nizk.challenge) (σv : Store) (b : Bool) :
    verify env σv t nizk msg ≠ .ok b := by
  have ht : t = .and false [s.stmt, s.stmt] := (Except.ok.inj hand).symm
  subst ht
  have hord := hq.ne_zero
  simp only [List.nodup_cons, List.mem_cons, List.not_mem_nil, or_false, not_or, not_false_eq_true,
    List.nodup_nil, and_true] at hpriv
  obtain ⟨hpr, hab⟩ := hpriv
  have hh : s.lhs1.grp = s.h.grp := by rw [hgrp s.lhs1 (by simp), hgrp s.h (by simp)]
  have hl := leads_ne s (hgrp _ (by simp)) hh
  have p1 := NotEqual.precommit_of (w := { w with store := updateSecretValues w.store d }) hh hpr hord hx
  have vx : ∀ σ y, σ.value s.x = some x → (s.after σ x y).value s.x = some x := fun σ y h =>
    (NotEqual.after_value h hab hpr).2.2
  have p2 := NotEqual.precommit_of (w := ⟨s.after (updateSecretValues w.store d) x
    ((w.rng 0 % s.g.grp.order : Nat) : Int), fun i => w.rng (i + 1)⟩) hh hpr hord (vx _ _ hx)
  have keep : ∀ σ y, ∀ z ∈ d.map Prod.fst, (s.after σ x y).key z = σ.key z := by
    intro σ y z hz
    obtain ⟨e, he, rfl⟩ := List.mem_map.mp hz
    exact NotEqual.after_key fun h => h.elim (hda e he).1 (hda e he).2
  have told0 := told_of_uniq hd
  have idem0 := updateSecretValues_idem w.store d
  obtain ⟨_, k, l1, r1, l2, r2, hr⟩ := Twice.twice_run (e := ⟨s.spec, false, .none, none, none⟩) hl p1 p2
    (NotEqual.after_value hx hab hpr).1 (NotEqual.after_value (vx _ _ hx) hab hpr).1
    (told_same told0 (keep _ _)) (fixed_same idem0 (keep _ _))
    (told_same (told_same told0 (keep _ _)) (keep _ _)) (fixed_same (fixed_same idem0 (keep _ _)) (keep _ _)) h
  refine Twice.twice_refused (e := ⟨s.spec, false, .none, none, none⟩) hl (fun e => ?_) hr b
  injection e with e
  refine Twice.responses_differ ?_ e
  have hp : Prime (s.g.grp.order : Int) := Nat.prime_iff_prime_int.mp hq
  rw [hp.dvd_mul, not_or]
  refine ⟨hc, fun hdiv => ?_⟩
  have h1 : (s.g.grp.order : Int) ∣ x * (((w.rng 0 % s.g.grp.order : Nat) : Int) - ((w.rng 1 % s.g.grp.order : Nat) : Int)) := by
    rw [mul_sub]
    exact Int.dvd_of_emod_eq_zero (by rw [Int.sub_emod]; exact Int.emod_eq_zero_of_dvd hdiv)
  rcases hp.dvd_or_dvd h1 with h1 | h1
  · exact hx0 h1
  · have a1 : w.rng 0 % s.g.grp.order < s.g.grp.order := Nat.mod_lt _ hq.pos
    have a2 : w.rng 1 % s.g.grp.order < s.g.grp.order := Nat.mod_lt _ hq.pos
    have := Int.eq_zero_of_abs_lt_dvd h1 (by rw [abs_lt]; omega)
    omega

/-- Whether the prover of `p & p` returns a proof with challenge 5. -/
def exAndTwice (t : Except Err (Stmt (ZMod 7))) (d : Dict Int) (w : World) : Bool :=
  match t with
  | .ok t => match prove (LeafProver (ZMod 7)) (Ex.env 5) t d "m" w with
    | .ok ((nizk, _), _) => decide (nizk.challenge = 5)
    | .error _ => false
  | .error _ => false

/-- The prover of `p & p` for `exNe`, with `x = 2` and the draws 0, 1, 2, …, returns a proof with challenge 5; the
other hypotheses hold, too.  `p` alone is proved and accepted with these draws, shifted by one (C34). -/
example (bind : Bool) : exAndTwice (opAnd (exNe bind).stmt (exNe bind).stmt) [(2, 2)]
      ⟨⟨exNeStore.name, fun _ => none⟩, fun i => i⟩ = true ∧
    (updateSecretValues ⟨exNeStore.name, fun _ => none⟩ [(2, 2)]).value (exNe bind).x = some 2 ∧
    ¬ ((exNe bind).g.grp.order : Int) ∣ 2 ∧ ¬ ((exNe bind).g.grp.order : Int) ∣ 5 ∧
    0 % (exNe bind).g.grp.order ≠ 1 % (exNe bind).g.grp.order := by
  cases bind <;> decide +kernel

theorem leads_bbs {P : Pairing E} {s : BBS E} (hP : s.P = P) (hk : GoodKey P s.pk) (gen : E) :
    Twice.Leads (s.spec gen) s.r1 P.order := by
  intro σ v k hc
  have hc' : s.construct σ v = .ok k := hc
  obtain ⟨a1, a2, g0, g1, g2, gs, ve, vs, vm, _, _, hg, _, _, _, _, _, rfl⟩ := BBS.construct_inv hP hk hc'
  have hgr := hk.g1 g1 (by rw [hg]; simp)
  refine ⟨_, [_, _], rfl, ⟨_, rfl⟩, ⟨_, _, rfl, ?_⟩, rfl⟩
  rw [hgr]; rfl

/-- **C90** is violated by proofs of BBS+ signatures.  Let `p` be a statement about a signature, over groups of
prime order `q`.  Whatever proof of `p & p` the honest prover makes, if its first and third random draw below `q`
(the blinder `r1` of each use) differ and the challenge is not zero modulo `q`, no verifier with the same public key
and secrets reaches a verdict, whatever signature it has. -/
theorem C90_signature_refused (P : Pairing E) (env : Env E) (s : BBS E) (sig : Signature E) (gen : E) (flag : Bool)
    (d : Dict Int) (w w' : World) (msg : String) (t t' : Stmt E) (nizk : NIZK E) (hP : s.P = P) (hk : GoodKey P s.pk)
    (hq : P.order.Prime) (hsig : s.signature = some sig) (hA : sig.A.grp = P.G1) (h3 : 3 ≤ s.vars.length)
    (hfit : s.vars.length ≤ s.pk.generators.length)
    (hnd : [s.r1, s.r2, s.delta1, s.delta2].Nodup) (hd : d.Uniq (updateSecretValues w.store d))
    (hda : ∀ e ∈ d, e.1 ∉ [s.r1, s.r2, s.delta1, s.delta2])
    (hand : opAnd (s.stmt gen flag) (s.stmt gen flag) = .ok t)
    (h : prove (LeafProver E) env t d msg w = .ok ((nizk, t'), w'))
    (hdraws : w.rng 0 % P.order ≠ w.rng 2 % P.order) (hc : ¬ (P.order : Int) ∣ nizk.challenge)
    (σv : Store) (sigv : Option (Signature E)) (genv : E) (flagv : Bool) (tv : Stmt E)
    (hv : opAnd (({ s with signature := sigv } : BBS E).stmt genv flagv)
      (({ s with signature := sigv } : BBS E).stmt genv flagv) = .ok tv) (b : Bool) :
    verify env σv tv nizk msg ≠ .ok b := by
  have ht : t = .and false [s.stmt gen flag, s.stmt gen flag] := (Except.ok.inj hand).symm
  subst ht
  have ht : tv = .and false [({ s with signature := sigv } : BBS E).stmt genv flagv,
    ({ s with signature := sigv } : BBS E).stmt genv flagv] := (Except.ok.inj hv).symm
  subst ht
  have hl := leads_bbs hP hk gen
  have hl' : Twice.Leads (({ s with signature := sigv } : BBS E).spec genv) s.r1 P.order :=
    leads_bbs (s := { s with signature := sigv }) hP hk genv
  simp only [List.nodup_cons, List.mem_cons, List.not_mem_nil, or_false, not_or, not_false_eq_true,
    List.nodup_nil, and_true] at hnd hda
  obtain ⟨⟨n1, n2, n3⟩, _⟩ := hnd
  have hnd3 : ∀ σ r r' e, (s.after e P.order σ r r').value s.r1 = some r := by
    intro σ r r' e
    unfold BBS.after
    simp only [Store.setValue, if_neg n1, if_neg n2, if_neg n3, if_true]
  have keep : ∀ σ r r' e, ∀ z ∈ d.map Prod.fst, (s.after e P.order σ r r').key z = σ.key z := by
    intro σ r r' e z hz
    obtain ⟨y, hy, rfl⟩ := List.mem_map.mp hz
    obtain ⟨m1, m2, m3, m4⟩ := hda y hy
    unfold BBS.after
    simp only [Store.key, Store.setValue, if_neg m1, if_neg m2, if_neg m3, if_neg m4]
  obtain ⟨g0, g1, g2, gs, hg⟩ : ∃ g0 g1 g2 gs, s.pk.generators = g0 :: g1 :: g2 :: gs := by
    match h : s.pk.generators with
    | [] => rw [h] at hfit; simp only [List.length_nil] at hfit; omega
    | [_] => rw [h] at hfit; simp only [List.length_cons, List.length_nil] at hfit; omega
    | [_, _] => rw [h] at hfit; simp only [List.length_cons, List.length_nil] at hfit; omega
    | g0 :: g1 :: g2 :: gs => exact ⟨_, _, _, _, rfl⟩
  have hb : ∀ i, i < 3 → s.bases[i]? = s.pk.generators[i]? := by
    intro i hi
    unfold BBS.bases
    rw [List.getElem?_take_of_lt (by omega)]
  have k0 := hk.g1 g0 (by simp [hg])
  have k1 := hk.g1 g1 (by simp [hg])
  have k2 := hk.g1 g2 (by simp [hg])
  have o0 : g0.grp.order = P.order := by rw [k0]; rfl
  have pre := BBS.precommit_of hsig (b0 := g0) (b1 := g1) (b2 := g2) (by rw [hb 0 (by omega), hg]; rfl)
    (by rw [hb 1 (by omega), hg]; rfl) (by rw [hb 2 (by omega), hg]; rfl) (k1.trans k0.symm) (k2.trans k0.symm)
    (hA.trans k0.symm) (by rw [o0]; exact hq.ne_zero)
  rw [o0] at pre
  have told0 := told_of_uniq hd
  have idem0 := updateSecretValues_idem w.store d
  obtain ⟨_, k, l1, r1, l2, r2, hr⟩ := Twice.twice_run (e := ⟨s.spec gen, flag, .none, none, none⟩) hl
    (pre { w with store := updateSecretValues w.store d }) (pre _) (hnd3 _ _ _ _) (hnd3 _ _ _ _)
    (told_same told0 (keep _ _ _ _)) (fixed_same idem0 (keep _ _ _ _))
    (told_same (told_same told0 (keep _ _ _ _)) (keep _ _ _ _))
    (fixed_same (fixed_same idem0 (keep _ _ _ _)) (keep _ _ _ _)) h
  refine Twice.twice_refused (e := ⟨({ s with signature := sigv } : BBS E).spec genv, flagv, .none, none, none⟩) hl'
    (fun e => ?_) hr b
  injection e with e
  refine Twice.responses_differ ?_ e
  have hp : Prime (P.order : Int) := Nat.prime_iff_prime_int.mp hq
  rw [hp.dvd_mul, not_or]
  refine ⟨hc, fun h1 => ?_⟩
  replace h1 : (P.order : Int) ∣ ((w.rng 0 % P.order : Nat) : Int) - ((w.rng 2 % P.order : Nat) : Int) := h1
  have a1 : w.rng 0 % P.order < P.order := Nat.mod_lt _ hq.pos
  have a2 : w.rng 2 % P.order < P.order := Nat.mod_lt _ hq.pos
  have := Int.eq_zero_of_abs_lt_dvd h1 (by rw [abs_lt]; omega)
  omega

/-- The prover of `p & p` for a statement about `exSig`, with the draws 0, 1, 2, …, returns a proof with
challenge 5. -/
example : exAndTwice (opAnd (exBBS.stmt 1 false) (exBBS.stmt 1 false)) [(2, 1), (3, 2)] ⟨exMsgs, fun i => i⟩ = true := by
  decide +kernel

end Zksk.Props
