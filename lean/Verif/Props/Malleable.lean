import Verif.Lemmas.Malleable
import Verif.Props.HonestRange
import Verif.ExCodec
import Verif.Lemmas.Interview

/-! # C105: accepted proofs can be changed by everybody -/

set_option linter.unusedSectionVars false

namespace Zksk.Props

open Spec

variable {E : Type} [AddCommGroup E] [DecidableEq E]

/-- **C105** Let `M` be a number that kills the group, like its order.  Add to the responses of a proof multiples of
`M`, for all occurrences of a secret the same one, except that each or-clause may have its own, and to the
sub-challenges of disjunctions multiples of `M · 2^128`.  The verdict of `verify` on a proof is also its verdict on the changed
proof.  Of the statement it is only needed that the representations it is made of have as many secrets as bases,
which the constructors ensure. -/
theorem C105_changed (env : Env E) (σ : Store) (t : Stmt E) (nizk : NIZK E) (msg : String) (b : Bool) (M : Int)
    (hM : ∀ x : E, M • x = 0) (m : Key → Int) (r' : Val E)
    (hr : ∀ S k, DigestedTop σ t nizk.precommitment S k → WellFormed k ∧ Raised σ M k nizk.responses m r')
    (hv : verify env σ t nizk msg = .ok b) :
    verify env σ t { nizk with responses := r' } msg = .ok b := by
  rw [verify_iff] at hv ⊢
  obtain ⟨S, k, id, com, ρ, c, h1, h2, h3, h4, h5, h6⟩ := hv
  obtain ⟨hwf, hk⟩ := hr S k h1
  obtain ⟨ρ', h4', _⟩ := raised_agree hk ρ h4
  have h5' := raised_eqns hM h5 m r' 0 hwf hk
  rw [mul_zero, add_zero] at h5'
  exact ⟨S, k, id, com, ρ', c, h1, h2, h3, h4', h5', h6⟩

/-- **C105** The same for statements without extended parts. -/
theorem C105_changed_core (env : Env E) (σ : Store) (t : Core E) (nizk : NIZK E) (msg : String) (b : Bool) (M : Int)
    (hM : ∀ x : E, M • x = 0) (m : Key → Int) (r' : Val E) (hwf : WellFormed t)
    (hr : Raised σ M t nizk.responses m r') (hv : verify env σ t nizk msg = .ok b) :
    verify env σ t { nizk with responses := r' } msg = .ok b := by
  rw [← verify_embed] at hv ⊢
  refine C105_changed env σ (embed t) nizk msg b M hM m r' (fun S k hk => ?_) hv
  have : k = t := (digested_embed (digestedTop_digested hk) t rfl).1
  exact this ▸ ⟨hwf, hr⟩

/-- `6 = x0·3` or both `1 = x0·1 + x1·2` and `5 = x2·3`: 7 is added to the response of the first clause, in the second
one 14 to all responses, and 7 · 2^128 to the second sub-challenge. -/
example : verify (Ex.fullEnv 3) Ex.σ0 (.or false [.leaf Ex.rep2, .and false [.leaf Ex.rep1, .leaf Ex.rep3]] : Core (ZMod 7))
    ⟨3, .tuple [.list [.int 1, .int (2 + 7 * 2 ^ 128)], .list [.list [.int 10], .list [.list [.int 18, .int 19], .list [.int 20]]]], .none,
      Ex.encId (.comp "OrProofStmt" [.dlrep [Ex.P 3] [0] (Ex.P 6),
        .comp "AndProofStmt" [.dlrep Ex.rep1.bases [0, 1] Ex.rep1.lhs, .dlrep [Ex.P 3] [2] (Ex.P 5)]])⟩ "" = .ok true := by
  refine C105_changed_core (Ex.fullEnv 3) Ex.σ0 (.or false [.leaf Ex.rep2, .and false [.leaf Ex.rep1, .leaf Ex.rep3]])
    ⟨3, .tuple [.list [.int 1, .int 2], .list [.list [.int 3], .list [.list [.int 4, .int 5], .list [.int 6]]]], .none, _⟩ ""
    true 7 (by decide) (fun _ => 0) _ (by simp [WellFormed, WellFormedL, Ex.rep1, Ex.rep2, Ex.rep3]) ?_ (by decide +kernel)
  refine Raised.any false _ _ (.list [.list [.int 3], .list [.list [.int 4, .int 5], .list [.int 6]]]) _ (fun i _ => i + 1)
    (fun i => if i = 0 then .list [.int 3] else .list [.list [.int 4, .int 5], .list [.int 6]]) [1, 2] [1, 2 + 7 * 2 ^ 128]
    [.list [.int 10], .list [.list [.int 18, .int 19], .list [.int 20]]] rfl rfl rfl rfl ?_ ?_ ?_
  · intro i c hc
    match i, hc with
    | 0, hc => exact ⟨0, by simpa using hc⟩
    | 1, hc => exact ⟨1, by simp at hc; simp [← hc]⟩
  · intro i hi
    match i, hi with
    | 0, _ => rfl
    | 1, _ => rfl
  · intro i t r' ht hr'
    match i, ht, hr' with
    | 0, ht, hr' =>
      cases ht; cases hr'
      refine Raised.rep Ex.rep2 _ _ [10] rfl fun i x hx => ?_
      match i, hx with
      | 0, _ => exact ⟨3, rfl, rfl⟩
    | 1, ht, hr' =>
      cases ht; cases hr'
      refine Raised.all false _ _ _ (fun i => if i = 0 then .list [.int 4, .int 5] else .list [.int 6]) _ rfl ?_ ?_
      · intro i hi
        match i, hi with
        | 0, _ => rfl
        | 1, _ => rfl
      · intro i t r' ht hr'
        match i, ht, hr' with
        | 0, ht, hr' =>
          cases ht; cases hr'
          refine Raised.rep Ex.rep1 _ _ [18, 19] rfl fun i x hx => ?_
          match i, hx with
          | 0, _ => exact ⟨4, rfl, rfl⟩
          | 1, _ => exact ⟨5, rfl, rfl⟩
        | 1, ht, hr' =>
          cases ht; cases hr'
          refine Raised.rep Ex.rep3 _ _ [20] rfl fun i x hx => ?_
          match i, hx with
          | 0, _ => exact ⟨6, rfl, rfl⟩

/-- **C105** From each accepted proof of a statement with a secret one can make infinitely many other accepted proofs for the same
message, with the same challenge, precommitment and statement hash. -/
theorem C105_infinitely_many (env : Env E) (σ : Store) (t : Stmt E) (nizk : NIZK E) (msg : String) (M : Int) (hM0 : M ≠ 0)
    (hM : ∀ x : E, M • x = 0)
    (hk : ∀ S k, DigestedTop σ t nizk.precommitment S k → WellFormed k ∧ secrets k ≠ [])
    (hv : verify env σ t nizk msg = .ok true) :
    {r | verify env σ t { nizk with responses := r } msg = .ok true}.Infinite := by
  obtain ⟨S, k, id, com, ρ, c, h1, h2, h3, h4, h5, h6, h7⟩ := (verify_iff env σ t nizk msg true).mp hv
  obtain ⟨hwf, hs⟩ := hk S k h1
  obtain ⟨f, hf, hinj⟩ := raise_exists σ hM0 h5 ρ h4 hwf
  refine Set.infinite_of_injective_forall_mem (hinj hs) fun n => ?_
  obtain ⟨ρ', h4', _⟩ := raised_agree (hf n) ρ h4
  have h5' := raised_eqns hM h5 _ _ 0 hwf (hf n)
  rw [mul_zero, add_zero] at h5'
  exact (verify_iff env σ t _ msg true).mpr ⟨S, k, id, com, ρ', c, h1, h2, h3, h4', h5', h6, h7⟩

/-- The proof that the prover of an extended statement makes, which constructs a disjunction. -/
example : ∃ x, prove (LeafProver (ZMod 7)) (Ex.env 1) exEitherWayStmt [] "" ⟨Ex.σ, fun _ => 3⟩ = .ok x ∧
    {r | verify (Ex.env 1) Ex.σ0 exEitherWayStmt { x.1.1 with responses := r } "" = .ok true}.Infinite :=
  ⟨_, rfl, C105_infinitely_many (Ex.env 1) Ex.σ0 exEitherWayStmt _ "" 7 (by decide) (by decide)
    (fun S k hd => by
      obtain ⟨h, _⟩ := digested_ext (digestedTop_digested hd)
      cases h
      simp [WellFormed, WellFormedL, secrets, secretsL, Ex.rep3]) rfl⟩

/-- An extended statement that constructs `5 = x2·3`. -/
abbrev exJustStmt : Stmt (ZMod 7) :=
  .leaf (.ext ⟨⟨"Just", fun _ _ => .ok (.leaf Ex.rep3), fun _ => .ok (), pure (.int 1), pure (.int 1)⟩, false, .none, none, none⟩)

/-- **C105** In the interactive protocol: changed responses are accepted where the responses are, also as answer to the
challenge plus a multiple of `M · 2^128`. -/
theorem C105_interactive (σ : Store) (t t1 : Stmt E) (v com r r' : Val E) (c n M : Int) (hM : ∀ x : E, M • x = 0) (m : Key → Int)
    (h1 : Tree.process σ (Tree.freshVerifier t) v = .ok t1)
    (hr : ∀ S k, Digested σ t v S k → WellFormed k ∧ Raised σ M k r m r')
    (hv : verifyResponse σ t1 com c r = .ok true) :
    verifyResponse σ t1 com (c + M * 2 ^ 128 * n) r' = .ok true := by
  obtain ⟨S, k, hd, hk⟩ := verifyResponse_process h1 hv
  obtain ⟨hwf, hR⟩ := hr S k hd
  rw [hk] at hv ⊢
  obtain ⟨⟨ρ, ha⟩, he⟩ := verifyResponse_iff.mp hv
  obtain ⟨ρ', ha', _⟩ := raised_agree hR ρ ha
  exact verifyResponse_iff.mpr ⟨⟨ρ', ha'⟩, raised_eqns hM he m r' n hwf hR⟩

/-- An extended statement about `5 = x2·3`; 7 is added to the response and 7 · 2^128 to the challenge. -/
example : ∃ t1, Tree.process Ex.σ0 (Tree.freshVerifier exJustStmt) (.int 1) = .ok t1 ∧
    verifyResponse Ex.σ0 t1 (.pt (Ex.P 2)) (4 + 7 * 2 ^ 128 * 1) (.list [.int (5 + 7 * 1)]) = .ok true :=
  ⟨_, rfl, C105_interactive Ex.σ0 exJustStmt _ (.int 1) _ (.list [.int 5]) _ 4 1 7 (by decide) (fun _ => 1) rfl
    (fun S k hd => by
      obtain ⟨h, _⟩ := digested_ext hd
      cases h
      refine ⟨by simp [WellFormed, Ex.rep3], Raised.rep _ _ _ [5 + 7 * 1] rfl fun i x hx => ?_⟩
      match i, hx with
      | 0, _ => exact ⟨5, rfl, rfl⟩) rfl⟩

end Zksk.Props
