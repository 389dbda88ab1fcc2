import Verif.Props.BBSComplete
import Verif.Props.Statement

/-! # C33: proofs after serialization -/

set_option linter.unusedSectionVars false

namespace Zksk.Props

open Spec

variable {E : Type} [AddCommGroup E] [DecidableEq E]

/-- **C33** (positive part) Let the precommitment contain neither tuples nor points of pairing groups, as is the
case for statements without extended parts, and for inequalities and range proofs over elliptic curve groups.  Then
`deserialize(serialize(nizk))` succeeds; a verdict of `verify` on `nizk` is also its verdict on the result.  The
converse holds, too, unless `nizk` has a tuple of sub-challenges.  Of the statement it is only needed that
the representations it is made of have as many secrets as bases, which the constructors ensure. -/
theorem C33_verdict_partial (env : Env E) (cd : Codec E) (hcd : Faithful env cd) (n : Nat) (σ : Store) (t : Stmt E)
    (nizk : NIZK E) (msg : String) (hp : Portable nizk.precommitment)
    (hwf : ∀ S k, DigestedTop σ t nizk.precommitment S k → WellFormed k) :
    ∃ nizk' n', NIZK.deserialize cd n (nizk.serialize env cd) = .ok (nizk', n') ∧
      nizk'.challenge = nizk.challenge ∧ nizk'.precommitment = nizk.precommitment ∧
      nizk'.stmtHash = nizk.stmtHash ∧
      ∀ b, (verify env σ t nizk msg = .ok b → verify env σ t nizk' msg = .ok b) ∧
        ((∀ S k, DigestedTop σ t nizk.precommitment S k → ListedChallenges k nizk.responses) →
          verify env σ t nizk' msg = .ok b → verify env σ t nizk msg = .ok b) := by
  have h := deserialize_serialize hcd n nizk
  rw [reread_portable _ _ hp] at h
  refine ⟨_, _, h, rfl, rfl, rfl, fun b => ?_⟩
  rw [verify_iff, verify_iff]
  constructor
  · rintro ⟨S, k, id, com, ρ, c, h1, h2, h3, h4, h5, h6⟩
    exact ⟨S, k, id, com, ρ, c, h1, h2, h3, agree_reread h4 (hwf S k h1) _ _ _ h5 ⟨n, rfl⟩,
      eqns_reread h5 _ ⟨n, rfl⟩, h6⟩
  · rintro hl ⟨S, k, id, com, ρ, c, h1, h2, h3, h4, h5, h6⟩
    exact ⟨S, k, id, com, ρ, c, h1, h2, h3, agree_of_reread h4 (hwf S k h1) _ _ _ h5 ⟨n, rfl⟩,
      eqns_of_reread h5 _ ⟨n, rfl⟩ (hl S k h1), h6⟩

/-- **C33** The same for statements without extended parts. -/
theorem C33_verdict_core (env : Env E) (cd : Codec E) (hcd : Faithful env cd) (n : Nat) (σ : Store) (t : Core E)
    (nizk : NIZK E) (msg : String) (hp : Portable nizk.precommitment) (hwf : WellFormed t)
    (hl : ListedChallenges t nizk.responses) :
    ∃ nizk' n', NIZK.deserialize cd n (nizk.serialize env cd) = .ok (nizk', n') ∧
      ∀ b, verify env σ t nizk' msg = .ok b ↔ verify env σ t nizk msg = .ok b := by
  have key : ∀ S k, DigestedTop σ (embed t) nizk.precommitment S k → k = t := by
    rintro S k (⟨_, hk, _⟩ | ⟨_, hk⟩)
    · exact (digested_embed (Digested.bare (σ := σ) t) k hk).1.symm
    · exact (digested_embed hk t rfl).1
  obtain ⟨nizk', n', h1, _, _, _, h2⟩ := C33_verdict_partial env cd hcd n σ (embed t) nizk msg hp
    fun S k hk => key S k hk ▸ hwf
  refine ⟨nizk', n', h1, fun b => ?_⟩
  rw [← verify_embed, ← verify_embed]
  exact ⟨(h2 b).2 fun S k hk => (key S k hk).symm ▸ hl, (h2 b).1⟩

set_option maxRecDepth 100000 in
/-- An accepted proof of a disjunction; the pair of challenges and responses is a tuple, which decoding turns into a
list. -/
example : ∃ nizk' n', NIZK.deserialize Ex.codec 5 (NIZK.serialize (Ex.fullEnv 3) Ex.codec ⟨3, .tuple [.list [.int 1, .int 2],
      .list [.list [.int 3], .list [.int 1]]], .none,
      Ex.encId (.comp "OrProofStmt" [.dlrep [Ex.P 3] [0] (Ex.P 6), .dlrep [Ex.P 3] [1] (Ex.P 5)])⟩) = .ok (nizk', n') ∧
    verify (Ex.fullEnv 3) Ex.σ0 (.or false [.leaf Ex.rep2, .leaf Ex.rep3] : Core (ZMod 7)) nizk' "" = .ok true := by
  obtain ⟨nizk', n', h1, h2⟩ := C33_verdict_core (Ex.fullEnv 3) Ex.codec (Ex.faithful 3) 5 Ex.σ0
    (.or false [.leaf Ex.rep2, .leaf Ex.rep3]) ⟨3, .tuple [.list [.int 1, .int 2], .list [.list [.int 3], .list [.int 1]]], .none,
      Ex.encId (.comp "OrProofStmt" [.dlrep [Ex.P 3] [0] (Ex.P 6), .dlrep [Ex.P 3] [1] (Ex.P 5)])⟩ ""
    trivial (by simp [WellFormed, WellFormedL, Ex.rep2, Ex.rep3])
    (.any _ _ _ (by intro l h; cases h) fun i t rs ri ht _ _ => by
      have := List.mem_of_getElem? ht
      simp only [List.mem_cons, List.not_mem_nil, or_false] at this
      rcases this with rfl | rfl <;> exact .rep _ _)
  exact ⟨nizk', n', h1, (h2 true).mpr (by decide +kernel)⟩

/-- **C33** (violation found) A proof of a disjunction whose sub-challenges come as a tuple is refused by `verify`
with an `AttributeError`, and accepted after serialization, if it is accepted with the sub-challenges as list. -/
theorem C33_tuple_challenges (env : Env E) (cd : Codec E) (hcd : Faithful env cd) (n : Nat) (σ : Store) (b : Bool)
    (subs : List (Core E)) (c : Int) (cs : List Int) (rs : Val E) (v : Val E) (h : List UInt8) (msg : String)
    (hp : Portable v) (hwf : WellFormed (.or b subs : Core E))
    (hacc : verify env σ (.or b subs : Core E) ⟨c, .tuple [.list (cs.map .int), rs], v, h⟩ msg = .ok true) :
    (∃ nizk' n', NIZK.deserialize cd n (NIZK.serialize env cd ⟨c, .tuple [.tuple (cs.map .int), rs], v, h⟩) =
        .ok (nizk', n') ∧ verify env σ (.or b subs : Core E) nizk' msg = .ok true) ∧
      verify env σ (.or b subs : Core E) ⟨c, .tuple [.tuple (cs.map .int), rs], v, h⟩ msg = .error .attributeError := by
  constructor
  · have h1 := deserialize_serialize hcd n ⟨c, .tuple [.tuple (cs.map .int), rs], v, h⟩
    have h2 := deserialize_serialize hcd n ⟨c, .tuple [.list (cs.map .int), rs], v, h⟩
    have e : reread n (.tuple [.tuple (cs.map .int), rs] : Val E) = reread n (.tuple [.list (cs.map .int), rs]) := by
      simp [reread, rereadL]
    refine ⟨_, _, h1, ?_⟩
    have key : ∀ S k, DigestedTop σ (embed (.or b subs)) v S k → k = .or b subs := by
      rintro S k (⟨_, hk, _⟩ | ⟨_, hk⟩)
      · exact (digested_embed (Digested.bare (σ := σ) _) k hk).1.symm
      · exact (digested_embed hk _ rfl).1
    rw [← verify_embed] at hacc ⊢
    obtain ⟨nizk', n', g1, _, _, _, g2⟩ := C33_verdict_partial env cd hcd n σ (embed (.or b subs))
      ⟨c, .tuple [.list (cs.map .int), rs], v, h⟩ msg hp fun S k hk => key S k hk ▸ hwf
    have := (g2 true).1 hacc
    rw [h2] at g1
    cases g1
    simp only [e]
    exact this
  · unfold verify at hacc ⊢
    obtain ⟨t1, h1, hacc⟩ := bind_ok_iff.mp hacc
    obtain ⟨id, h2, hacc⟩ := bind_ok_iff.mp hacc
    obtain ⟨_, h3, hacc⟩ := bind_ok_iff.mp hacc
    obtain ⟨com, h4, hacc⟩ := bind_ok_iff.mp hacc
    have ht1 : ∃ subs', t1 = .or b subs' := by
      simp only [fresh_core] at h1
      unfold digestPrecommitment at h1
      split at h1
      · cases h1; exact ⟨_, rfl⟩
      · simp only [Tree.process] at h1
        split at h1
        · cases h1; exact ⟨_, rfl⟩
        · obtain ⟨_, _, h1⟩ := bind_ok_iff.mp h1
          cases h1; exact ⟨_, rfl⟩
    obtain ⟨subs', rfl⟩ := ht1
    simp only at h1 h2 h3 h4
    simp only [h1, bind_ok, h2]
    have hor : ∀ (l : List (Core E)) (i : Nat),
        Tree.consistencyOr σ l i (.tuple [.tuple (cs.map .int), rs]) =
          Tree.consistencyOr σ l i (.tuple [.list (cs.map .int), rs]) := by
      intro l
      induction l with
      | nil => intro i; rfl
      | cons t ts ih =>
        intro i
        simp only [Tree.consistencyOr, Val.index, List.getElem?_cons_succ, List.getElem?_cons_zero, ih]
    have h3' : preVerification σ (.or b subs' : Core E) (.tuple [.tuple (cs.map .int), rs]) = .ok () := by
      rw [← h3]
      unfold preVerification
      simp only [Tree.consistency, hor]
    rw [h3']
    rfl

set_option maxRecDepth 100000 in
/-- The case of the last example. -/
example : verify (Ex.fullEnv 3) Ex.σ0 (.or false [.leaf Ex.rep2, .leaf Ex.rep3] : Core (ZMod 7))
    ⟨3, .tuple [.tuple ([1, 2].map .int), .list [.list [.int 3], .list [.int 1]]], .none,
      Ex.encId (.comp "OrProofStmt" [.dlrep [Ex.P 3] [0] (Ex.P 6), .dlrep [Ex.P 3] [1] (Ex.P 5)])⟩ "" =
      .error .attributeError :=
  (C33_tuple_challenges (Ex.fullEnv 3) Ex.codec (Ex.faithful 3) 5 Ex.σ0 false [.leaf Ex.rep2, .leaf Ex.rep3] 3 [1, 2]
    (.list [.list [.int 3], .list [.int 1]]) .none _ "" trivial (by simp [WellFormed, WellFormedL, Ex.rep2, Ex.rep3])
    (by decide +kernel)).2

/-- **C33** (violation found) A proof of an extended statement whose precommitment is a tuple gets no verdict after
serialization, if it got one before: the identifier of the statement contains the precommitment, so `verify` raises
an exception, unless there is a hash collision. -/
theorem C33_tuple_precommitment (env : Env E) (cd : Codec E) (hcd : Faithful env cd) (n : Nat) (σ : Store) (e : Ext E)
    (c : Int) (r : Val E) (l : List (Val E)) (h : List UInt8) (msg : String) (b : Bool)
    (hinj : Function.Injective env.digest)
    (hacc : verify env σ (.leaf (.ext e) : Stmt E) ⟨c, r, .tuple l, h⟩ msg = .ok b) :
    ∃ nizk' n', NIZK.deserialize cd n (NIZK.serialize env cd ⟨c, r, .tuple l, h⟩) = .ok (nizk', n') ∧
      ∀ b', verify env σ (.leaf (.ext e) : Stmt E) nizk' msg ≠ .ok b' := by
  refine ⟨_, _, deserialize_serialize hcd n _, fun b' hb' => ?_⟩
  rw [verify_iff] at hacc hb'
  obtain ⟨S, k, id, _, _, _, h1, h2, h3, _⟩ := hacc
  obtain ⟨S', k', id', _, _, _, h1', h2', h3', _⟩ := hb'
  have hid : id = id' := hinj (h3.symm.trans h3')
  subst hid
  have key : ∀ v S k, DigestedTop σ (.leaf (.ext e)) v S k → ∃ S0, S = .ext e.spec.cls v S0 := by
    rintro v S k (⟨_, hk, _⟩ | ⟨hv, hk⟩)
    · exact absurd hk.symm embed_ext
    · generalize ht : (Tree.leaf (.ext e) : Stmt E) = t at hk
      cases hk with
      | bare k => exact absurd rfl hv
      | rep s v => simp at ht
      | ext s v t hc hv =>
        simp at ht
        subst ht
        exact ⟨_, rfl⟩
      | all => simp at ht
      | any => simp at ht
  obtain ⟨S0, rfl⟩ := key _ _ _ h1
  obtain ⟨S0', rfl⟩ := key _ _ _ h1'
  have := h2.2.1.symm.trans h2'.2.1
  simp [reread] at this

/-- A statement that takes a tuple with the left-hand side as precommitment. -/
def exTupled : Ext (ZMod 7) :=
  ⟨⟨"Tupled", fun _ v => do
      let p ← (← v.index 0).asPt
      .ok (.leaf ⟨p, [Ex.P 3], [0], [], false⟩), fun _ => .ok (), pure (.tuple [.pt (Ex.P 6)]),
    pure (.tuple [.pt (Ex.P 6)])⟩, false, .none, none, none⟩

set_option maxRecDepth 100000 in
/-- An accepted proof of `exTupled`. -/
example : ∃ nizk' n', NIZK.deserialize Ex.codec 5 (NIZK.serialize (Ex.fullEnv 3) Ex.codec
      ⟨3, .list [.int 2], .tuple [.pt (Ex.P 6)],
        Ex.encId (.ext "Tupled" (.tuple [.pt (Ex.P 6)]) (.dlrep [Ex.P 3] [0] (Ex.P 6)))⟩) = .ok (nizk', n') ∧
    ∀ b', verify (Ex.fullEnv 3) Ex.σ0 (.leaf (.ext exTupled) : Stmt (ZMod 7)) nizk' "" ≠ .ok b' :=
  C33_tuple_precommitment (Ex.fullEnv 3) Ex.codec (Ex.faithful 3) 5 Ex.σ0 exTupled 3 (.list [.int 2])
    [.pt (Ex.P 6)] _ "" true
    (fun a b h => (Ex.encId_inj a b [] [] (by rw [List.append_nil, List.append_nil]; exact h)).1)
    (by decide +kernel)

/-- **C33** Two points of pairing groups that are decoded one after the other cannot be added, even if they have been in
the same group before. -/
theorem C33_points_apart (n : Nat) (p q : Pt E) (hp : p.grp.strict = false) (hq : q.grp.strict = false) :
    ∃ p' q', reread n (.list [.pt p, .pt q]) = (.list [.pt p', .pt q'], n + 2) ∧ p'.val = p.val ∧ q'.val = q.val ∧
      p'.add q' = .error .foreign := by
  refine ⟨(rereadPt n p).1, (rereadPt (n + 1) q).1, ?_, ?_, ?_, ?_⟩
  · simp [reread, rereadL, rereadPt, hp, hq]
  · simp [rereadPt, hp]
  · simp [rereadPt, hq]
  · have : ¬ 3 * n + p.grp.gid % 3 = 3 * (n + 1) + q.grp.gid % 3 := by omega
    simp [rereadPt, hp, hq, Pt.add, this]

/-- Two points of one group, whose sum exists before. -/
example : ∃ p q : Pt (ZMod 7), p.grp.strict = false ∧ q.grp.strict = false ∧ p.add q = .ok ⟨⟨0, 7, false⟩, 3⟩ :=
  ⟨⟨⟨0, 7, false⟩, 1⟩, ⟨⟨0, 7, false⟩, 2⟩, rfl, rfl, by decide⟩

/-- **C33** (violation found) No proof of a BBS+ signature gets a verdict after serialization: decoding a point of a
pairing group makes a new pair of groups, and `verify` raises an exception as the points are not in the groups of
the public key.  The pairs made by decoding have numbers from `n` on, so `n` is larger than the number of the pair
the public key is made with. -/
theorem C33_pairings (P : Pairing E) (env : Env E) (cd : Codec E) (hcd : Faithful env cd) (n : Nat) (σ : Store)
    (s : BBS E) (gen : E) (flag : Bool) (nizk : NIZK E) (msg : String) (hP : s.P = P) (hk : GoodKey P s.pk)
    (hn : P.id < n) :
    ∃ nizk' n', NIZK.deserialize cd n (nizk.serialize env cd) = .ok (nizk', n') ∧
      ∀ b, verify env σ (s.stmt gen flag) nizk' msg ≠ .ok b := by
  refine ⟨_, _, deserialize_serialize hcd n _, fun b hb => ?_⟩
  rw [verify_iff] at hb
  obtain ⟨S, k, _, _, _, _, h1, _⟩ := hb
  have key : s.construct σ (reread (reread n nizk.responses).2 nizk.precommitment).1 = .ok k := by
    rcases h1 with ⟨_, hk, _⟩ | ⟨hv, hk⟩
    · exact absurd hk.symm embed_ext
    · generalize ht : (s.stmt gen flag : Stmt E) = t at hk
      unfold BBS.stmt at ht
      generalize (reread (reread n nizk.responses).2 nizk.precommitment).1 = v at hv hk
      cases hk with
      | bare k => exact absurd rfl hv
      | rep s v => simp at ht
      | ext s v t hc hv =>
        simp at ht
        subst ht
        exact hc
      | all => simp at ht
      | any => simp at ht
  obtain ⟨a1, _, _, _, _, _, _, _, _, h, _, _, _, _, _, hg, _⟩ := BBS.construct_inv hP hk key
  have := reread_le n nizk.responses
  rcases reread_lookup h with h | h <;> rw [hg] at h
  · simp [Pairing.G1] at h
  · simp only [Pairing.G1] at h
    omega

/-- The accepted proofs about `exSig` of the example for C57: the new pairs have numbers from 100 on. -/
example (rng : Nat → Nat) (msg : String) : ∃ σ1 s nizk t' w' nizk' n',
    mkBBS exPairing exMsgs [0, 1] exPk (some exSig) false 2 = .ok (σ1, s) ∧
    prove (LeafProver (ZMod 7)) (Ex.fullEnv 5) (s.stmt 1 false) [] msg ⟨σ1, rng⟩ = .ok ((nizk, t'), w') ∧
    verify (Ex.fullEnv 5) σ1 (s.stmt 1 false) nizk msg = .ok true ∧
    NIZK.deserialize Ex.codec 100 (nizk.serialize (Ex.fullEnv 5) Ex.codec) = .ok (nizk', n') ∧
    ∀ b, verify (Ex.fullEnv 5) σ1 (s.stmt 1 false) nizk' msg ≠ .ok b := by
  obtain ⟨σ1, s, h1, h2, h3, h4, h5, h6, h7, h8⟩ := C44_constructor exPairing exMsgs [0, 1] exPk exSig false 2 [4, 6]
    2 3 [0, 1] rfl (by decide) (by decide) (by decide) (by simp [exPk])
  have hname : σ1.name = exMsgs.name := by
    have : mkBBS exPairing exMsgs [0, 1] exPk (some exSig) false 2 = .ok ((exMsgs.setValue 2 exSig.e).setValue 3 exSig.s, _) := rfl
    rw [this] at h1
    cases h1; rfl
  have hinj : ∀ x y, σ1.name x = σ1.name y → x = y := by
    rw [hname]
    intro x y h
    have := congrArg String.length h
    simpa [exMsgs] using this
  obtain ⟨nizk, t', w', g1, g2⟩ := C57_complete exPairing (Ex.fullEnv 5) s exSig [4, 6] 1 false [] ⟨σ1, rng⟩ msg h2
    (h3 ▸ exKey.good) (by decide) (by rw [h3]; decide) (by rw [h3]; decide) h4 (by simp) (by rw [h3]; decide)
    (by rw [h3]; decide) h6 h7 h8 (by simp [Dict.Uniq]) (by simp) (fun x _ y _ h => hinj x y h)
  obtain ⟨nizk', n', g3, g4⟩ := C33_pairings exPairing (Ex.fullEnv 5) Ex.codec (Ex.faithful 5) 100 σ1 s 1 false nizk
    msg h2 (h3 ▸ exKey.good) (by decide)
  exact ⟨σ1, s, nizk, t', w', nizk', n', h1, g1, (g2 σ1 s.signature 1 false fun x _ y _ h => hinj x y h).1, g3, g4⟩

end Zksk.Props
