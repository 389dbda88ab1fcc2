import Verif.Props.ExtHiding

/-! # C63: witness indistinguishability with extended parts; BBS+ proofs are unlinkable -/

set_option linter.unusedSectionVars false

namespace Zksk.Props

open Spec

variable {E : Type} [AddCommGroup E] [DecidableEq E]

/-- What is needed of a prover with the statement object `t`, the heap `σ` and the explicit values `d`: the
conditions of C62, in the eyes of somebody with heap `σs`. -/
structure Hidden (F : Profile E) (q : Nat) (Z : ExtSpec E → Val E → Prop) (σs : Store) (t : Stmt E) (σ : Store)
    (d : Dict Int) : Prop where
  single : ∀ s, t ≠ .leaf (.dlrep s)
  conj : AndOnly t
  ready : Spec.Ready F q (updateSecretValues σ d) d Z t
  hides : EveryLeaf (LeafHides F q (updateSecretValues σ d) σs d) t
  named : Named F σ.name t
  seen : Named F σs.name t

/-- **C63** Interactive runs: the messages of two provers with the same public statement, but different values of
the secrets, different signatures and so on, are the same up to a translation of the random numbers. -/
theorem C63_interactive (F : Profile E) (q : Nat) (Z : ExtSpec E → Val E → Prop) (env : Env E) (σs : Store)
    (t₁ t₂ : Stmt E) (σ₁ σ₂ : Store) (d₁ d₂ : Dict Int) (h₁ : Hidden F q Z σs t₁ σ₁ d₁)
    (h₂ : Hidden F q Z σs t₂ σ₂ d₂) (hp : publicPart t₁ = publicPart t₂) :
    ∃ n, ∀ c : Int, SameOutputs n q (honestRunStmt env t₁ d₁ c) σ₁ (honestRunStmt env t₂ d₂ c) σ₂ := by
  have : NeZero q := ⟨order_of_ready h₁.ready.sound h₁.ready.holds⟩
  obtain ⟨n, k₁⟩ := C62_runs_coincide F q Z env t₁ t₁ d₁ σ₁ σs h₁.single h₁.conj h₁.ready h₁.hides h₁.named h₁.seen rfl
  obtain ⟨m, k₂⟩ := C62_runs_coincide F q Z env t₂ t₁ d₂ σ₂ σs h₂.single h₂.conj h₂.ready h₂.hides h₂.named h₂.seen hp
  refine ⟨n, fun c => ?_⟩
  have := (k₂ c).symm
  simp only [← pruned_same hp] at this
  exact (k₁ c).trans this

/-- **C63** Non-interactive proofs: both provers use exactly `n` random numbers, and over the blocks of `n` uniform
numbers below `q`, every proof is made by the first prover exactly as often as by the second one. -/
theorem C63_same_distribution (F : Profile E) (q : Nat) (Z : ExtSpec E → Val E → Prop) (env : Env E) (msg : String)
    (σs : Store) (t₁ t₂ : Stmt E) (σ₁ σ₂ : Store) (d₁ d₂ : Dict Int) (h₁ : Hidden F q Z σs t₁ σ₁ d₁)
    (h₂ : Hidden F q Z σs t₂ σ₂ d₂) (hp : publicPart t₁ = publicPart t₂) :
    ∃ n, (∀ (y : Fin n → Fin q) rest o w, prove (LeafProver E) env t₁ d₁ msg ⟨σ₁, tape y rest⟩ = .ok (o, w) → w.rng = rest) ∧
      (∀ (y : Fin n → Fin q) rest o w, prove (LeafProver E) env t₂ d₂ msg ⟨σ₂, tape y rest⟩ = .ok (o, w) → w.rng = rest) ∧
      ∀ (rest : Nat → Nat) (nizk : NIZK E),
      Nat.card {y : Fin n → Fin q // ∃ t' w, prove (LeafProver E) env t₁ d₁ msg ⟨σ₁, tape y rest⟩ = .ok ((nizk, t'), w)} =
      Nat.card {y : Fin n → Fin q // ∃ t' w, prove (LeafProver E) env t₂ d₂ msg ⟨σ₂, tape y rest⟩ = .ok ((nizk, t'), w)} := by
  have : NeZero q := ⟨order_of_ready h₁.ready.sound h₁.ready.holds⟩
  obtain ⟨n, k₁⟩ := stmt_parts F q Z h₁.single h₁.conj h₁.ready h₁.hides h₁.named h₁.seen
  obtain ⟨m, k₂⟩ := stmt_parts F q Z h₂.single h₂.conj h₂.ready h₂.hides h₂.named h₂.seen
  have k (c : Int) : SameOutputs n q (honestView t₁ d₁ c) σ₁ (honestView t₂ d₂ c) σ₂ := by
    have k₂' := (k₂ c).symm
    rw [← simParts_same hp] at k₂'
    exact (k₁ c).trans k₂'
  have used : ∀ (t : Stmt E) (d : Dict Int) (σ : Store),
      (∀ (c : Int) (y : Fin n → Fin q) rest, ∃ v w, honestView t d c ⟨σ, tape y rest⟩ = .ok (v, w) ∧ w.rng = rest) →
      ∀ (y : Fin n → Fin q) rest o w, prove (LeafProver E) env t d msg ⟨σ, tape y rest⟩ = .ok (o, w) → w.rng = rest := by
    rintro t d σ hr y rest ⟨nizk, t'⟩ w h
    obtain ⟨id, com, g1, -, -⟩ := prove_parts.mp ⟨t', h⟩
    obtain ⟨v, w', g2, g3⟩ := hr nizk.challenge y rest
    rw [g1] at g2
    cases g2
    exact g3
  refine ⟨n, used t₁ d₁ σ₁ fun c y rest => ?_, used t₂ d₂ σ₂ fun c y rest => ?_, fun rest nizk => ?_⟩
  · obtain ⟨e, he⟩ := k c
    obtain ⟨v, w, _, h, h', -⟩ := he y rest
    exact ⟨v, w, h, h'⟩
  · obtain ⟨e, he⟩ := (k c).symm
    obtain ⟨v, w, _, h, h', -⟩ := he y rest
    exact ⟨v, w, h, h'⟩
  have hc := (k nizk.challenge).count rest fun a => ∃ id com, a = (nizk.precommitment, id, com, nizk.responses) ∧
    env.fiatShamir id nizk.precommitment com msg = .ok nizk.challenge ∧ nizk.stmtHash = env.digest id
  have conv : ∀ (t : Stmt E) (d : Dict Int) (w : World),
      (∃ t' w', prove (LeafProver E) env t d msg w = .ok ((nizk, t'), w')) ↔
      ∃ a w', honestView t d nizk.challenge w = .ok (a, w') ∧ ∃ id com, a = (nizk.precommitment, id, com, nizk.responses) ∧
        env.fiatShamir id nizk.precommitment com msg = .ok nizk.challenge ∧ nizk.stmtHash = env.digest id := by
    intro t d w
    rw [exists_comm]
    constructor
    · rintro ⟨w', h⟩
      obtain ⟨id, com, g1, g2, g3⟩ := prove_parts.mp h
      exact ⟨_, w', g1, id, com, rfl, g2, g3⟩
    · rintro ⟨_, w', g1, id, com, rfl, g2, g3⟩
      exact ⟨w', prove_parts.mpr ⟨id, com, g1, g2, g3⟩⟩
  refine (Nat.card_congr (Equiv.subtypeEquivRight fun y => conv t₁ d₁ _)).trans
    (hc.trans (Nat.card_congr (Equiv.subtypeEquivRight fun y => (conv t₂ d₂ _).symm)))

/-- A holder of a BBS+ signature: the secrets have the values of the parts of a signature that
`verify_signature()` accepts and of the messages; the four internal secrets are used for nothing else; names tell
secrets apart. -/
structure Holder (P : Pairing E) (gen : E) (s : BBS E) (sig : Signature E) (ms : List Int) (σ : Store) (d : Dict Int) :
    Prop where
  msgs : ms ≠ []
  fit : ms.length + 2 ≤ s.pk.generators.length
  valid : sig.verify P s.pk ms = .ok true
  vals : s.vars.map (updateSecretValues σ d).value = (sig.e :: sig.s :: ms).map some
  uniq : d.Uniq (updateSecretValues σ d)
  args : ∀ e ∈ d, e.1 ∉ [s.r1, s.r2, s.delta1, s.delta2]
  names : ∀ x ∈ [s.r1, s.r2, s.delta1, s.delta2] ++ s.vars, ∀ y ∈ [s.r1, s.r2, s.delta1, s.delta2] ++ s.vars,
      σ.name x = σ.name y → x = y
  mult : ∃ α : Int, sig.A = ⟨P.G1, α • gen⟩

/-- Conditions on the public part of a statement about a BBS+ signature: those of C62. -/
structure GoodBBS (P : Pairing E) (gen : E) (s : BBS E) : Prop where
  pairing : s.P = P
  key : GoodKey P s.pk
  prime : P.order.Prime
  tor : ∀ g ∈ s.pk.generators, (P.order : Int) • g.val = 0
  tor0 : (P.order : Int) • s.pk.h0.val = 0
  torg : (P.order : Int) • gen = 0
  diff : [s.r1, s.r2, s.delta1, s.delta2].Nodup
  priv : ∀ x ∈ [s.r1, s.r2, s.delta1, s.delta2], x ∉ s.vars
  gens : ∃ (g0 g1 g2 : Pt E) (gs : List (Pt E)) (a1 a2 : Int), s.pk.generators = g0 :: g1 :: g2 :: gs ∧
    g1.val = a1 • gen ∧ g2.val = a2 • gen ∧ g2.val ≠ 0

theorem hidden_bbs {P : Pairing E} {gen : E} {flag : Bool} {s : BBS E} {sig : Signature E} {ms : List Int}
    {σ σs : Store} {d : Dict Int} (hg : GoodBBS P gen s) (hsig : s.signature = some sig)
    (h : Holder P gen s sig ms σ d)
    (hs : ∀ x ∈ [s.r1, s.r2, s.delta1, s.delta2] ++ s.vars, ∀ y ∈ [s.r1, s.r2, s.delta1, s.delta2] ++ s.vars,
      σs.name x = σs.name y → x = y) :
    Hidden s.profile P.order BBS.isDict σs (s.stmt gen flag) σ d := by
  obtain ⟨α, hA⟩ := h.mult
  obtain ⟨g0, g1, g2, gs, a1, a2, hgs, h1, h2, h20⟩ := hg.gens
  have hlen : s.vars.length = ms.length + 2 := by simpa using congrArg List.length h.vals
  have hpos := List.length_pos_iff.mpr h.msgs
  have k0 := hg.key.g1 g0 (by rw [hgs]; simp)
  have k1 := hg.key.g1 g1 (by rw [hgs]; simp)
  have k2 := hg.key.g1 g2 (by rw [hgs]; simp)
  have hb : s.bases[0]? = some g0 ∧ s.bases[1]? = some g1 ∧ s.bases[2]? = some g2 := by
    unfold BBS.bases
    rw [hgs]
    refine ⟨?_, ?_, ?_⟩ <;> rw [List.getElem?_take_of_lt (by omega)] <;> rfl
  have hord : g0.grp.order = P.order := by rw [k0]; rfl
  have him : Imitates s.profile P.order 2 (updateSecretValues σ d) σs d (s.spec gen) := by
    have := BBS.imitates (s := s) (gen := gen) (σ := updateSecretValues σ d) (σs := σs)
      (d := d) (a1 := a1) (a2 := a2) (α := α) hsig hb ⟨by rw [k0, k1], by rw [k0, k2], by rw [hA, k0]⟩
      (by rw [hord]; exact hg.prime) (by rw [hord]; exact hg.torg) h1 h2 h20 (by rw [hA]) s.profile
    rwa [hord] at this
  refine ⟨by intro s'; unfold BBS.stmt; simp, .leaf _, ?_, ?_, named_bbs h.names, named_bbs hs⟩
  · exact ready_bbs P s sig ms gen flag d ⟨σ, fun _ => 0⟩ hg.pairing hg.key hg.prime.ne_zero hg.tor hg.tor0 hsig
      h.msgs h.fit h.valid h.vals hg.diff hg.priv h.uniq h.args
  · exact .leaf _ ⟨⟨2, him⟩, BBS.plain hg.pairing hg.key gen,
      BBS.leafFor hg.pairing hg.key gen gen σs s.signature ..⟩

/-- A signature is no part of the public statement. -/
theorem publicPart_bbs (s : BBS E) (gen : E) (flag : Bool) (o : Option (Signature E)) :
    publicPart (({ s with signature := o } : BBS E).stmt gen flag) = publicPart (s.stmt gen flag) := rfl

/-- **C63** Proofs of BBS+ signatures are unlinkable: two holders of signatures under the same key, on whatever
messages, and even if the signatures are the same, make every proof equally often; in particular nothing tells
whether two proofs are from the same signature. -/
theorem C63_bbs_unlinkable (P : Pairing E) (env : Env E) (msg : String) (gen : E) (flag : Bool) (s₁ s₂ : BBS E)
    (sig₁ sig₂ : Signature E) (ms₁ ms₂ : List Int) (σ₁ σ₂ : Store) (d₁ d₂ : Dict Int) (hg : GoodBBS P gen s₁)
    (hs₁ : s₁.signature = some sig₁) (hs₂ : s₂ = { s₁ with signature := some sig₂ })
    (h₁ : Holder P gen s₁ sig₁ ms₁ σ₁ d₁) (h₂ : Holder P gen s₂ sig₂ ms₂ σ₂ d₂) :
    ∃ n, (∀ (y : Fin n → Fin P.order) rest o w,
        prove (LeafProver E) env (s₁.stmt gen flag) d₁ msg ⟨σ₁, tape y rest⟩ = .ok (o, w) → w.rng = rest) ∧
      (∀ (y : Fin n → Fin P.order) rest o w,
        prove (LeafProver E) env (s₂.stmt gen flag) d₂ msg ⟨σ₂, tape y rest⟩ = .ok (o, w) → w.rng = rest) ∧
      ∀ (rest : Nat → Nat) (nizk : NIZK E),
      Nat.card {y : Fin n → Fin P.order // ∃ t' w,
        prove (LeafProver E) env (s₁.stmt gen flag) d₁ msg ⟨σ₁, tape y rest⟩ = .ok ((nizk, t'), w)} =
      Nat.card {y : Fin n → Fin P.order // ∃ t' w,
        prove (LeafProver E) env (s₂.stmt gen flag) d₂ msg ⟨σ₂, tape y rest⟩ = .ok ((nizk, t'), w)} := by
  subst hs₂
  have k₁ := hidden_bbs (flag := flag) (σs := σ₁) hg hs₁ h₁ h₁.names
  have k₂ := hidden_bbs (flag := flag) (σs := σ₁) (s := { s₁ with signature := some sig₂ })
    ⟨hg.pairing, hg.key, hg.prime, hg.tor, hg.tor0, hg.torg, hg.diff, hg.priv, hg.gens⟩ rfl h₂ h₁.names
  exact C63_same_distribution s₁.profile P.order BBS.isDict env msg σ₁ _ _ σ₁ σ₂ d₁ d₂ k₁ k₂
    (publicPart_bbs s₁ gen flag (some sig₂)).symm

/-- A signature on the messages 5, 6 under `exPk`. -/
def exSig' : Signature (ZMod 7) := ⟨⟨exPairing.G1, 4⟩, 1, 2⟩

theorem exMsgs_name {x y : Sec} (h : exMsgs.name x = exMsgs.name y) : x = y := by
  have := congrArg String.length h
  simpa [exMsgs] using this

theorem exGood : GoodBBS exPairing (1 : ZMod 7) exBBS :=
  ⟨rfl, exKey.good, (by decide : Nat.Prime 7), by decide, by decide, by decide, by decide, by decide,
    _, _, _, _, 3, 2, rfl, by decide, by decide, by decide⟩

theorem exHolder : Holder exPairing (1 : ZMod 7) exBBS exSig [4, 6] exMsgs [(2, 1), (3, 2)] :=
  ⟨by simp, by decide, by decide, by decide, ⟨rfl, rfl, trivial⟩, by decide, fun _ _ _ _ h => exMsgs_name h, 1, by decide⟩

/-- The heap of somebody with the messages 5, 6. -/
def exMsgs' : Store := ⟨exMsgs.name, fun s => if s = 0 then some 5 else if s = 1 then some 6 else none⟩

theorem exHolder' : Holder exPairing (1 : ZMod 7) { exBBS with signature := some exSig' } exSig' [5, 6] exMsgs'
    [(2, 1), (3, 2)] :=
  ⟨by simp, by decide, by decide, by decide, ⟨rfl, rfl, trivial⟩, by decide, fun _ _ _ _ h => exMsgs_name h, 4, by decide⟩

/-- The hypotheses of `C63_bbs_unlinkable` (hence of `C63_interactive` and `C63_same_distribution`) are met by the
holders of a signature on 4, 6 and of another one on 5, 6. -/
example := C63_bbs_unlinkable exPairing (Ex.env 5) "m" (1 : ZMod 7) true exBBS { exBBS with signature := some exSig' }
  exSig exSig' [4, 6] [5, 6] exMsgs exMsgs' _ _ exGood rfl rfl exHolder exHolder'

/-- The hypotheses of `C63_interactive` are met by the same holders. -/
example := C63_interactive exBBS.profile 7 BBS.isDict (Ex.env 5) exMsgs (exBBS.stmt 1 true)
  (({ exBBS with signature := some exSig' } : BBS (ZMod 7)).stmt 1 true) exMsgs exMsgs' _ _
  (hidden_bbs exGood rfl exHolder fun _ _ _ _ h => exMsgs_name h)
  (hidden_bbs (s := { exBBS with signature := some exSig' }) ⟨rfl, exGood.key, exGood.prime, exGood.tor, exGood.tor0,
    exGood.torg, exGood.diff, exGood.priv, exGood.gens⟩ rfl exHolder' fun _ _ _ _ h => exMsgs_name h)
  (publicPart_bbs exBBS 1 true (some exSig')).symm

end Zksk.Props
