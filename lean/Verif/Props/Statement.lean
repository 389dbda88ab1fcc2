import Verif.Lemmas.Accept
import Verif.ExCodec

/-! # C07 – C12, C20, C21: statements, identifiers and the acceptance criterion -/

set_option linter.unusedSectionVars false

namespace Zksk.Spec

/-- The conjuncts of a statement: a conjunction is its list of subproofs, anything else is one
conjunct. -/
def conjuncts {L : Type} : Tree L → List (Tree L)
  | .and _ subs => subs
  | t => [t]

/-- The disjuncts of a statement. -/
def disjuncts {L : Type} : Tree L → List (Tree L)
  | .or _ subs => subs
  | t => [t]

end Zksk.Spec

namespace Zksk.Props

open Spec

variable {E : Type} [AddCommGroup E] [DecidableEq E]

/-! ### C03 for statements -/

theorem distinct_idxOf (l : List String) :
    distinct (l.map fun n => (distinct l).idxOf n) = List.range (distinct l).length := by
  have hinj : ∀ a ∈ l, ∀ b ∈ l, (distinct l).idxOf a = (distinct l).idxOf b → a = b :=
    fun a ha b _ h => (List.idxOf_inj (mem_distinct.mpr ha)).mp h
  rw [distinct_map _ l hinj]
  apply List.ext_getElem
  · simp
  · intro i h1 h2
    simp only [List.getElem_map, List.getElem_range]
    exact (distinct_nodup l).idxOf_getElem i _

/-- **C03** In the identifier of a statement (of any shape, with constructed extended parts): every
occurrence of a secret has one identifier, two occurrences have the same one iff the secrets have the
same name, and in order of first occurrence the identifiers are 0, 1, 2, … -/
theorem C03_statement_ids (σ : Store) (t : Stmt E) (id : PId E) (h : Tree.proofId σ t = .ok id) :
    ∃ vs, stmtSecrets t = some vs ∧ SamePattern id.ids (vs.map σ.name) ∧
      ∃ n, distinct id.ids = List.range n := by
  obtain ⟨S, vs, is, _, h2, h3, _, h5, _⟩ := Tree.proofId_ok h
  rw [idsOf_canonical] at h3
  injection h3 with h3
  rw [← h3] at h5
  refine ⟨vs, (secretVars_stmt t vs).mp h2, ?_, _, by rw [h5]; exact distinct_idxOf _⟩
  rw [h5]
  refine ⟨by simp [canonicalIds], ?_⟩
  intro i j a b n n' ha hb hn hn'
  simp only [canonicalIds, List.getElem?_map (f := fun n => (distinct (vs.map σ.name)).idxOf n), hn, hn',
    Option.map_some, Option.some.injEq] at ha hb
  subst ha; subst hb
  exact List.idxOf_inj (mem_distinct.mpr (List.mem_of_getElem? hn))

/-- Three secrets over two representations, one occurring twice. -/
example : (Tree.proofId ⟨fun s => if s = 5 then "x" else if s = 3 then "y" else "z", fun _ => none⟩
    (.and false [.leaf (.dlrep ⟨⟨⟨0, 7, true⟩, 3⟩, [⟨⟨0, 7, true⟩, 1⟩, ⟨⟨0, 7, true⟩, 2⟩], [5, 3], [], false⟩),
    .leaf (.dlrep ⟨⟨⟨0, 7, true⟩, 3⟩, [⟨⟨0, 7, true⟩, 1⟩, ⟨⟨0, 7, true⟩, 2⟩], [4, 5], [], false⟩)] :
      Stmt (ZMod 7))).toOption.map PId.ids = some [0, 1, 2, 0] := by decide +kernel

/-! ### C07 -/

/-- **C07** `a & b` is the flat conjunction of the conjuncts of both; fewer than two raises
`ValueError`. -/
theorem C07_and_flat {L : Type} (a b : Tree L) :
    opAnd a b = if (conjuncts a ++ conjuncts b).length < 2 then .error .valueError
      else .ok (.and false (conjuncts a ++ conjuncts b)) := by
  cases a <;> cases b <;> simp [opAnd, mkAnd, conjuncts]

/-- **C07** `a | b` is the flat disjunction of the disjuncts of both. -/
theorem C07_or_flat {L : Type} (a b : Tree L) :
    opOr a b = if (disjuncts a ++ disjuncts b).length < 2 then .error .valueError
      else .ok (.or false (disjuncts a ++ disjuncts b)) := by
  cases a <;> cases b <;> simp [opOr, mkOr, disjuncts]

/-- **C07** Both associations of `a & b & c` give the same flat list of subproofs. -/
theorem C07_and_assoc {L : Type} (a b c : Tree L) (ha : conjuncts a ≠ []) (hb : conjuncts b ≠ [])
    (hc : conjuncts c ≠ []) :
    (opAnd a b >>= fun x => opAnd x c)
      = .ok (.and false (conjuncts a ++ conjuncts b ++ conjuncts c)) ∧
    (opAnd b c >>= fun y => opAnd a y)
      = .ok (.and false (conjuncts a ++ conjuncts b ++ conjuncts c)) := by
  have la := List.length_pos_iff.mpr ha
  have lb := List.length_pos_iff.mpr hb
  have lc := List.length_pos_iff.mpr hc
  constructor
  · rw [C07_and_flat, if_neg (by simp; omega), bind_ok, C07_and_flat]
    have e : ∀ l, conjuncts (.and false l : Tree L) = l := fun _ => rfl
    rw [e, if_neg (by simp only [List.length_append]; omega)]
  · rw [C07_and_flat, if_neg (by simp; omega), bind_ok, C07_and_flat]
    have e : ∀ l, conjuncts (.and false l : Tree L) = l := fun _ => rfl
    rw [e, if_neg (by simp only [List.length_append]; omega)]
    simp only [List.append_assoc]

/-- **C07** Both associations of `a | b | c` give the same flat list of subproofs. -/
theorem C07_or_assoc {L : Type} (a b c : Tree L) (ha : disjuncts a ≠ []) (hb : disjuncts b ≠ [])
    (hc : disjuncts c ≠ []) :
    (opOr a b >>= fun x => opOr x c)
      = .ok (.or false (disjuncts a ++ disjuncts b ++ disjuncts c)) ∧
    (opOr b c >>= fun y => opOr a y)
      = .ok (.or false (disjuncts a ++ disjuncts b ++ disjuncts c)) := by
  have la := List.length_pos_iff.mpr ha
  have lb := List.length_pos_iff.mpr hb
  have lc := List.length_pos_iff.mpr hc
  constructor
  · rw [C07_or_flat, if_neg (by simp; omega), bind_ok, C07_or_flat]
    have e : ∀ l, disjuncts (.or false l : Tree L) = l := fun _ => rfl
    rw [e, if_neg (by simp only [List.length_append]; omega)]
  · rw [C07_or_flat, if_neg (by simp; omega), bind_ok, C07_or_flat]
    have e : ∀ l, disjuncts (.or false l : Tree L) = l := fun _ => rfl
    rw [e, if_neg (by simp only [List.length_append]; omega)]
    simp only [List.append_assoc]

/-- **C07** The constructors raise `ValueError` exactly for fewer than two subproofs, and otherwise
keep the list. -/
theorem C07_constructors {L : Type} (subs : List (Tree L)) :
    (subs.length < 2 → mkAnd subs = .error .valueError ∧ mkOr subs = .error .valueError) ∧
    (2 ≤ subs.length → mkAnd subs = .ok (.and false subs) ∧ mkOr subs = .ok (.or false subs)) := by
  constructor
  · intro h; simp [mkAnd, mkOr, h]
  · intro h; simp [mkAnd, mkOr, show ¬ subs.length < 2 by omega]

example : (opAnd (.or false [.leaf 1, .leaf 2]) (.leaf 3 : Tree Nat) >>= fun x => opAnd x (.leaf 4))
    = .ok (.and false [.or false [.leaf 1, .leaf 2], .leaf 3, .leaf 4]) := rfl

/-! ### C08, C09 -/

/-- Helper: the specification's views of a general statement give the model's. -/
private theorem views {t : Stmt E} {S : Skel E} {vs : List Sec} (hS : stmtShape t = some S)
    (hvs : stmtSecrets t = some vs) : Tree.skel t = some S ∧ Tree.secretVars t = .ok vs :=
  ⟨by rw [skel_stmt, hS], (secretVars_stmt t vs).mpr hvs⟩

/-- A statement that has a shape has a list of secrets. -/
theorem secrets_of_shape {t : Stmt E} {S : Skel E} (h : stmtShape t = some S) :
    ∃ vs, stmtSecrets t = some vs := by
  have h1 : Tree.skel t = some S := by rw [skel_stmt, h]
  obtain ⟨id, vs, _, hvs⟩ := Tree.proofId_isOk (σ := Ex.σ0) h1
  exact ⟨vs, (secretVars_stmt t vs).mp hvs⟩

theorem samePattern_map {α β : Type} {f : α → β} (hf : Function.Injective f) (l : List α) :
    SamePattern l (l.map f) := by
  refine ⟨by simp, ?_⟩
  intro i j a b a' b' ha hb ha' hb'
  simp only [List.getElem?_map, ha, hb, Option.map_some, Option.some.injEq] at ha' hb'
  subst ha'; subst hb'
  exact hf.eq_iff.symm

/-- **C08** An injective renaming of the secrets does not change the statement identifier. -/
theorem C08_id_invariant (σ : Store) (f : String → String) (hf : Function.Injective f)
    (t : Stmt E) :
    Tree.proofId { σ with name := fun s => f (σ.name s) } t = Tree.proofId σ t := by
  cases hS : Tree.skel t with
  | some S =>
    obtain ⟨_, vs, _, hvs⟩ := Tree.proofId_isOk (σ := σ) hS
    refine (Tree.proofId_eq_iff hS hS hvs hvs).mpr ⟨rfl, ?_⟩
    have := samePattern_map hf (vs.map σ.name)
    simp only [List.map_map] at this
    refine ⟨by simp, fun i j a b a' b' ha hb ha' hb' => ?_⟩
    exact (this.2 i j a' b' a b ha' hb' (by simpa using ha) (by simpa using hb)).symm
  | none =>
    cases h : Tree.secretVars t with
    | error e => unfold Tree.proofId; rw [h]; rfl
    | ok vs =>
      exfalso
      have hc : (Tree.core t).isSome = false := by rw [Tree.core_skel, hS]; rfl
      have : ∀ t : Stmt E, ∀ vs, Tree.secretVars t = .ok vs → (stmtShape t).isSome = true := by
        intro t
        refine Tree.rec (motive_1 := fun t => ∀ vs, Tree.secretVars t = .ok vs →
            (stmtShape t).isSome = true)
          (motive_2 := fun ts => ∀ vs, Tree.secretVarsL ts = .ok vs →
            (stmtShapeL ts).isSome = true) ?_ ?_ ?_ ?_ ?_ t
        · intro l vs h
          cases l with
          | dlrep s => simp [stmtShape]
          | ext s =>
            rw [secretVars_stmt] at h
            simp only [stmtSecrets, Option.map_eq_some_iff] at h
            obtain ⟨t, ht, _⟩ := h
            simp [stmtShape, ht]
        · intro b subs ih vs h
          simp only [Tree.secretVars] at h
          simpa [stmtShape] using ih vs h
        · intro b subs ih vs h
          simp only [Tree.secretVars] at h
          simpa [stmtShape] using ih vs h
        · intro vs _; simp [stmtShapeL]
        · intro t ts ih1 ih2 vs h
          simp only [Tree.secretVarsL] at h
          obtain ⟨a, ha, h⟩ := bind_ok_iff.mp h
          obtain ⟨b, hb, h⟩ := bind_ok_iff.mp h
          have h1 := ih1 a ha
          have h2 := ih2 b hb
          rw [Option.isSome_iff_exists] at h1 h2 ⊢
          obtain ⟨x, hx⟩ := h1
          obtain ⟨y, hy⟩ := h2
          exact ⟨x :: y, by simp [stmtShapeL, hx, hy]⟩
      have := this t vs h
      rw [← skel_stmt, hS] at this
      cases this

/-- **C08** More generally the identifier depends on the names only through the pattern of equal
names: prover and verifier may use entirely different `Secret` objects. -/
theorem C08_id_pattern (σ σ' : Store) (t t' : Stmt E) (S : Skel E) (vs vs' : List Sec)
    (hS : stmtShape t = some S) (hS' : stmtShape t' = some S)
    (hv : stmtSecrets t = some vs) (hv' : stmtSecrets t' = some vs')
    (hp : SamePattern (vs.map σ.name) (vs'.map σ'.name)) :
    ∃ id, Tree.proofId σ t = .ok id ∧ Tree.proofId σ' t' = .ok id := by
  obtain ⟨h1, h2⟩ := views hS hv
  obtain ⟨h1', h2'⟩ := views hS' hv'
  obtain ⟨id, _, hid, _⟩ := Tree.proofId_isOk (σ := σ) h1
  refine ⟨id, hid, ?_⟩
  rw [← (Tree.proofId_eq_iff h1 h1' h2 h2').mpr ⟨rfl, hp⟩, hid]

/-- **C08** A plain statement is verified in the same way (same verdict or same exception) under any
injective renaming. -/
theorem C08_verify_invariant (env : Env E) (σ : Store) (f : String → String)
    (hf : Function.Injective f) (t : Core E) (nizk : NIZK E) (msg : String) :
    verify env { σ with name := fun s => f (σ.name s) } t nizk msg = verify env σ t nizk msg := by
  apply verify_core_transfer env rfl
  · refine ⟨by simp, fun i j a b a' b' ha hb ha' hb' => ?_⟩
    simp only [List.getElem?_map, Option.map_eq_some_iff] at ha hb ha' hb'
    obtain ⟨x, hx, rfl⟩ := ha; obtain ⟨y, hy, rfl⟩ := hb
    obtain ⟨x', hx', rfl⟩ := ha'; obtain ⟨y', hy', rfl⟩ := hb'
    rw [hx] at hx'; rw [hy] at hy'; cases hx'; cases hy'
    exact hf.eq_iff
  · refine ⟨by simp, fun i j a b a' b' ha hb ha' hb' => ?_⟩
    simp only [List.getElem?_map, Option.map_eq_some_iff] at ha hb ha' hb'
    obtain ⟨x, hx, rfl⟩ := ha; obtain ⟨y, hy, rfl⟩ := hb
    obtain ⟨x', hx', rfl⟩ := ha'; obtain ⟨y', hy', rfl⟩ := hb'
    rw [hx] at hx'; rw [hy] at hy'; cases hx'; cases hy'
    simp only [Store.key, Prod.mk.injEq, hf.eq_iff]

example : Function.Injective (fun s : String => "renamed_" ++ s) := by
  intro a b h
  simpa using h

example : SamePattern ["a", "b", "a"] ["u", "v", "u"] ∧ ¬ SamePattern ["a", "b", "a"] ["u", "v", "v"] := by
  constructor
  · refine ⟨rfl, ?_⟩
    intro i j a b a' b'
    rcases i with _ | _ | _ | i <;> rcases j with _ | _ | _ | j <;> simp <;>
      (rintro rfl rfl rfl rfl; simp)
  · rintro ⟨_, h⟩
    have := (h 1 2 "b" "a" "v" "v" rfl rfl rfl rfl).mpr rfl
    exact absurd this (by decide)

/-- **C09** Two statements have the same identifier iff they have the same shape (connectives, bases,
left-hand sides, order of terms, classes and precommitments of extended parts) and the same pattern of
shared secret names. -/
theorem C09_id_determines (σ σ' : Store) (t t' : Stmt E) (id : PId E)
    (h : Tree.proofId σ t = .ok id) (h' : Tree.proofId σ' t' = .ok id) :
    ∃ S vs vs', stmtShape t = some S ∧ stmtShape t' = some S ∧ stmtSecrets t = some vs ∧
      stmtSecrets t' = some vs' ∧ SamePattern (vs.map σ.name) (vs'.map σ'.name) := by
  obtain ⟨S, vs, is, h1, h2, _⟩ := Tree.proofId_ok h
  obtain ⟨S', vs', is', h1', h2', _⟩ := Tree.proofId_ok h'
  obtain ⟨rfl, hp⟩ := (Tree.proofId_eq_iff h1 h1' h2 h2').mp (h.trans h'.symm)
  exact ⟨S, vs, vs', by rw [← skel_stmt, h1], by rw [← skel_stmt, h1'],
    (secretVars_stmt t vs).mp h2, (secretVars_stmt t' vs').mp h2', hp⟩

/-- **C09** Consequently statements with the same identifier recompute the same commitment from every
challenge and every responses. -/
theorem C09_same_equations (σ σ' : Store) (t t' : Stmt E) (id : PId E)
    (h : Tree.proofId σ t = .ok id) (h' : Tree.proofId σ' t' = .ok id) (c : Int) (r : Val E) :
    Tree.recompute t c r = Tree.recompute t' c r := by
  obtain ⟨S, vs, is, h1, h2, _⟩ := Tree.proofId_ok h
  obtain ⟨S', vs', is', h1', h2', _⟩ := Tree.proofId_ok h'
  obtain ⟨rfl, hp⟩ := (Tree.proofId_eq_iff h1 h1' h2 h2').mp (h.trans h'.symm)
  have hc : (Tree.core t).isSome := by rw [Tree.core_skel, h1]; rfl
  have hc' : (Tree.core t').isSome := by rw [Tree.core_skel, h1']; rfl
  obtain ⟨k, hk⟩ := Option.isSome_iff_exists.mp hc
  obtain ⟨k', hk'⟩ := Option.isSome_iff_exists.mp hc'
  rw [Tree.core_recompute t k c r hk, Tree.core_recompute t' k' c r hk']
  apply recompute_skel
  rw [Tree.core_erase t k S hk h1, Tree.core_erase t' k' S hk' h1']

/-- **C09** If moreover, on each side, secrets with equal names have equal values, plain statements
with the same identifier accept exactly the same proofs. -/
theorem C09_same_verification (env : Env E) (σ σ' : Store) (t t' : Core E) (id : PId E)
    (h : Tree.proofId σ t = .ok id) (h' : Tree.proofId σ' t' = .ok id)
    (hv : ∀ x ∈ secrets t, ∀ y ∈ secrets t, σ.name x = σ.name y → σ.value x = σ.value y)
    (hv' : ∀ x ∈ secrets t', ∀ y ∈ secrets t', σ'.name x = σ'.name y → σ'.value x = σ'.value y)
    (nizk : NIZK E) (msg : String) : verify env σ t nizk msg = verify env σ' t' nizk msg := by
  obtain ⟨hS, hp⟩ := (Tree.proofId_eq_iff (skel_core t) (skel_core t') (secretVars_core t)
    (secretVars_core t')).mp (h.trans h'.symm)
  refine verify_core_transfer env hS hp ⟨by simpa using hp.1, ?_⟩ nizk msg
  intro i j a b a' b' ha hb ha' hb'
  simp only [List.getElem?_map, Option.map_eq_some_iff] at ha hb ha' hb'
  obtain ⟨x, hx, rfl⟩ := ha; obtain ⟨y, hy, rfl⟩ := hb
  obtain ⟨x', hx', rfl⟩ := ha'; obtain ⟨y', hy', rfl⟩ := hb'
  have hn := hp.2 i j (σ.name x) (σ.name y) (σ'.name x') (σ'.name y')
    (by simp [hx]) (by simp [hy]) (by simp [hx']) (by simp [hy'])
  have e1 : σ.key x = σ.key y ↔ σ.name x = σ.name y := by
    simp only [Store.key, Prod.mk.injEq]
    exact ⟨fun h => h.1, fun h => ⟨h, hv x (List.mem_of_getElem? hx) y (List.mem_of_getElem? hy) h⟩⟩
  have e2 : σ'.key x' = σ'.key y' ↔ σ'.name x' = σ'.name y' := by
    simp only [Store.key, Prod.mk.injEq]
    exact ⟨fun h => h.1,
      fun h => ⟨h, hv' x' (List.mem_of_getElem? hx') y' (List.mem_of_getElem? hy') h⟩⟩
  rw [e1, e2, hn]

/-- The hypothesis on values cannot be dropped: with two `Secret` objects of the same name but
different values the identifier says "same secret" while verification treats them as different. Here
`σ` has two objects named `x0` with values 2 and 3; the two responses differ, yet this verifier gets
past the consistency check that the verifier with equal values fails. -/
theorem C09_values_matter :
    ∃ (σ σ' : Store) (t : Core (ZMod 7)) (id : PId (ZMod 7)) (nizk : NIZK (ZMod 7)),
      Tree.proofId σ t = .ok id ∧ Tree.proofId σ' t = .ok id ∧
      verify (Ex.env 0) σ t nizk "" = .ok true ∧
      verify (Ex.env 0) σ' t nizk "" = .error .validation :=
  ⟨⟨fun _ => "x", fun s => if s = 0 then some 2 else some 3⟩, ⟨fun _ => "x", fun _ => none⟩,
    .leaf Ex.rep1, .dlrep [Ex.P 1, Ex.P 2] [0, 0] (Ex.P 1), ⟨0, .list [.int 0, .int 1], .none, []⟩,
    by rfl, by rfl, by rfl, by rfl⟩

/-! ### C10, C11 -/

/-- **C11** `verify` returns a verdict — and not an exception — exactly when: the precommitment is
digested (every extended part is replaced by what it constructs from its precommitment, which its
validation accepts), the statement hash is the hash of the identifier, the responses agree on
re-occurring secrets, and the verification equations determine a commitment; the verdict is whether
the challenge is the Fiat–Shamir hash of identifier, precommitment, that commitment and message. -/
theorem C11_acceptance (env : Env E) (σ : Store) (t : Stmt E) (nizk : NIZK E) (msg : String)
    (b : Bool) :
    verify env σ t nizk msg = .ok b ↔
    ∃ S k id com ρ c, DigestedTop σ t nizk.precommitment S k ∧
      IsId S ((secrets k).map σ.name) id ∧ nizk.stmtHash = env.digest id ∧
      Agree σ k nizk.responses ρ ∧ Eqns k nizk.challenge nizk.responses com ∧
      env.fiatShamir id nizk.precommitment com msg = .ok c ∧
      b = decide (nizk.challenge = c) :=
  verify_iff env σ t nizk msg b

/-- **C11** For a plain statement and a proof without precommitment, as produced by the provers of
plain statements. -/
theorem C11_acceptance_plain (env : Env E) (σ : Store) (t : Core E) (nizk : NIZK E) (msg : String)
    (hpre : nizk.precommitment = .none) :
    verify env σ t nizk msg = .ok true ↔
    ∃ id com ρ, IsId (shape t) ((secrets t).map σ.name) id ∧ nizk.stmtHash = env.digest id ∧
      Agree σ t nizk.responses ρ ∧ Eqns t nizk.challenge nizk.responses com ∧
      env.fiatShamir id .none com msg = .ok nizk.challenge := by
  rw [← verify_embed, verify_iff, hpre]
  constructor
  · rintro ⟨S, k, id, com, ρ, c, hd, hid, hh, hρ, hcom, hc, hb⟩
    rcases hd with ⟨_, hk, rfl⟩ | ⟨h, _⟩
    · have := digested_embed (Digested.bare (σ := σ) t) k hk
      obtain ⟨rfl, _⟩ := this
      have : nizk.challenge = c := by simpa using hb.symm
      subst this
      exact ⟨id, com, ρ, hid, hh, hρ, hcom, hc⟩
    · exact absurd rfl h
  · rintro ⟨id, com, ρ, hid, hh, hρ, hcom, hc⟩
    exact ⟨shape t, t, id, com, ρ, _, .inl ⟨rfl, rfl, rfl⟩, hid, hh, hρ, hcom, hc, by simp⟩

example : verify (Ex.env 3) Ex.σ (.and false [.leaf Ex.rep1, .leaf Ex.rep2])
    ⟨3, .list [.list [.int 1, .int 4], .list [.int 1]], .none, []⟩ "" = .ok true := by rfl

/-- **C10** If the hash sent with the proof is not the hash of the statement's own identifier (with the
precommitment digested), `verify` raises `StatementMismatch` … -/
theorem C10_mismatch (env : Env E) (σ : Store) (t t1 : Stmt E) (id : PId E) (nizk : NIZK E)
    (msg : String)
    (hd : digestPrecommitment σ (Tree.freshVerifier t) nizk.precommitment = .ok t1)
    (hid : Tree.proofId σ t1 = .ok id) (hne : nizk.stmtHash ≠ env.digest id) :
    verify env σ t nizk msg = .error .statementMismatch := by
  unfold verify
  rw [hd]; simp only [bind_ok]
  unfold checkStatement
  rw [hid]; simp [bind_ok, hne, bind_err]

/-- … and for a plain statement whose proof comes without precommitment, unconditionally so. -/
theorem C10_mismatch_plain (env : Env E) (σ : Store) (t : Core E) (id : PId E) (nizk : NIZK E)
    (msg : String) (hpre : nizk.precommitment = .none) (hid : Tree.proofId σ t = .ok id)
    (hne : nizk.stmtHash ≠ env.digest id) :
    verify env σ t nizk msg = .error .statementMismatch := by
  unfold verify
  rw [fresh_core, hpre]
  simp only [digestPrecommitment, Val.isNone, if_true, bind_ok]
  unfold checkStatement
  rw [hid]; simp [bind_ok, hne, bind_err]

/-- **C10** Whatever the statement and the proof, a verdict is only given if the hash matches. -/
theorem C10_verdict_needs_hash (env : Env E) (σ : Store) (t : Stmt E) (nizk : NIZK E) (msg : String)
    (b : Bool) (h : verify env σ t nizk msg = .ok b) :
    ∃ S k id, DigestedTop σ t nizk.precommitment S k ∧ IsId S ((secrets k).map σ.name) id ∧
      nizk.stmtHash = env.digest id := by
  obtain ⟨S, k, id, com, ρ, c, h1, h2, h3, _⟩ := (verify_iff env σ t nizk msg b).mp h
  exact ⟨S, k, id, h1, h2, h3⟩

/-- **C10** Cross-statement replay: a proof carrying the hash of statement `t'` gets a verdict from a
verifier of the plain statement `t` only if the two statements have the same shape and the same
pattern of secret names — unless the hash function maps two different identifiers to one digest. -/
theorem C10_no_replay (env : Env E) (σ σ' : Store) (t t' : Core E) (id' : PId E) (nizk : NIZK E)
    (msg : String) (b : Bool) (hid' : Tree.proofId σ' t' = .ok id')
    (hh : nizk.stmtHash = env.digest id')
    (hinj : ∀ id, env.digest id = env.digest id' → id = id')
    (h : verify env σ t nizk msg = .ok b) :
    shape t = shape t' ∧ SamePattern ((secrets t).map σ.name) ((secrets t').map σ'.name) := by
  rw [← verify_embed] at h
  obtain ⟨S, k, id, h1, h2, h3⟩ := C10_verdict_needs_hash env σ (embed t) nizk msg b h
  have hk : k = t ∧ S = shape t := by
    rcases h1 with ⟨_, h1, rfl⟩ | ⟨_, h1⟩
    · have := digested_embed (Digested.bare (σ := σ) t) k h1
      exact ⟨this.1.symm, by rw [this.1]⟩
    · exact digested_embed h1 t rfl
  obtain ⟨rfl, rfl⟩ := hk
  have hid := (proofId_iff (skel_core k) (secretVars_core k)).mpr h2
  have : id = id' := hinj id (by rw [← h3, hh])
  subst this
  exact (Tree.proofId_eq_iff (skel_core k) (skel_core t') (secretVars_core k)
    (secretVars_core t')).mp (hid.trans hid'.symm)

example : verify { Ex.env 3 with sha := fun b => b, idBytes := fun _ => [1] } Ex.σ (.leaf Ex.rep1)
    ⟨3, .list [.int 1, .int 4], .none, [2]⟩ "" = .error .statementMismatch := by rfl

/-! ### C12 -/

/-- **C12** A proof accepted for two messages exhibits two challenge inputs, equal up to the message
with which they end, that hash to the same challenge. -/
theorem C12_message_binding (env : Env E) (σ : Store) (t : Stmt E) (nizk : NIZK E)
    (m m' : String) (h : verify env σ t nizk m = .ok true) (h' : verify env σ t nizk m' = .ok true) :
    ∃ pre : List UInt8, env.toInt (env.sha (pre ++ env.utf8 m)) = nizk.challenge ∧
      env.toInt (env.sha (pre ++ env.utf8 m')) = nizk.challenge := by
  unfold verify at h h'
  obtain ⟨t1, ht1, h⟩ := bind_ok_iff.mp h
  rw [ht1] at h'; simp only [bind_ok] at h'
  obtain ⟨id, hid, h⟩ := bind_ok_iff.mp h
  rw [hid] at h'; simp only [bind_ok] at h'
  obtain ⟨_, hp, h⟩ := bind_ok_iff.mp h
  rw [hp] at h'; simp only [bind_ok] at h'
  obtain ⟨com, hcom, h⟩ := bind_ok_iff.mp h
  rw [hcom] at h'; simp only [bind_ok] at h'
  obtain ⟨c1, hc1, h⟩ := bind_ok_iff.mp h
  obtain ⟨c2, hc2, h'⟩ := bind_ok_iff.mp h'
  have e1 : nizk.challenge = c1 := by simpa using Except.ok.inj h
  have e2 : nizk.challenge = c2 := by simpa using Except.ok.inj h'
  unfold Env.fiatShamir Env.challengeInput at hc1 hc2
  obtain ⟨i1, hi1, hc1⟩ := bind_ok_iff.mp hc1
  obtain ⟨i2, hi2, hc2⟩ := bind_ok_iff.mp hc2
  obtain ⟨a, ha, hi1⟩ := bind_ok_iff.mp hi1
  rw [ha] at hi2; simp only [bind_ok] at hi2
  obtain ⟨b, hb, hi1⟩ := bind_ok_iff.mp hi1
  rw [hb] at hi2; simp only [bind_ok] at hi2
  refine ⟨env.idBytes id ++ a ++ b, ?_, ?_⟩
  · rw [e1, ← Except.ok.inj hc1, ← Except.ok.inj hi1]
  · rw [e2, ← Except.ok.inj hc2, ← Except.ok.inj hi2]

/-- **C12** Hence, if the message encoding is injective, accepting a proof for two different messages
is a collision of the challenge hash. -/
theorem C12_collision (env : Env E) (hu : Function.Injective env.utf8) (σ : Store) (t : Stmt E)
    (nizk : NIZK E) (m m' : String) (hm : m ≠ m') (h : verify env σ t nizk m = .ok true)
    (h' : verify env σ t nizk m' = .ok true) :
    ∃ i i' : List UInt8, i ≠ i' ∧ env.toInt (env.sha i) = env.toInt (env.sha i') := by
  obtain ⟨pre, h1, h2⟩ := C12_message_binding env σ t nizk m m' h h'
  exact ⟨_, _, fun e => hm (hu (List.append_cancel_left e)), h1.trans h2.symm⟩

/-- **C12** For precommitments that are not raw bytes, the challenge input determines the identifier (as text),
the content of precommitment and commitment, and the message, provided no encoding is a prefix of another one and
encodings determine the content (as with msgpack, where tuples are written like lists). -/
theorem C12_input_injective_partial (env : Env E)
    (hid : ∀ a b x y, env.idBytes a ++ x = env.idBytes b ++ y → env.idBytes a = env.idBytes b)
    (henc : ∀ a b x y, env.encode a ++ x = env.encode b ++ y → content a = content b ∧ x = y)
    (hu : Function.Injective env.utf8)
    (id id' : PId E) (v v' com com' : Val E) (m m' : String) (i : List UInt8)
    (hv : ∀ b, v ≠ .bytes b) (hv' : ∀ b, v' ≠ .bytes b)
    (hc : ∀ b, com ≠ .bytes b) (hc' : ∀ b, com' ≠ .bytes b)
    (h : env.challengeInput id v com m = .ok i) (h' : env.challengeInput id' v' com' m' = .ok i) :
    env.idBytes id = env.idBytes id' ∧ content v = content v' ∧ content com = content com' ∧ m = m' := by
  have hchunk : ∀ (v : Val E) (b : List UInt8), (∀ b, v ≠ .bytes b) → env.chunk v = .ok b →
      b = env.encode v := by
    intro v b hv hb
    cases v <;> simp [Env.chunk] at hb hv ⊢ <;> exact hb.symm
  unfold Env.challengeInput at h h'
  obtain ⟨a, ha, h⟩ := bind_ok_iff.mp h
  obtain ⟨b, hb, h⟩ := bind_ok_iff.mp h
  obtain ⟨a', ha', h'⟩ := bind_ok_iff.mp h'
  obtain ⟨b', hb', h'⟩ := bind_ok_iff.mp h'
  have e := (Except.ok.inj h).trans (Except.ok.inj h').symm
  rw [hchunk v a hv ha, hchunk com b hc hb, hchunk v' a' hv' ha', hchunk com' b' hc' hb'] at e
  simp only [List.append_assoc] at e
  have h1 := hid _ _ _ _ e
  rw [h1] at e
  obtain ⟨h2, e⟩ := henc _ _ _ _ (List.append_cancel_left e)
  obtain ⟨h3, e⟩ := henc _ _ _ _ e
  exact ⟨h1, h2, h3, hu e⟩

/-- With a concrete encoding. -/
example (id id' : PId (ZMod 7)) (v v' com com' : Val (ZMod 7)) (m m' : String) (i : List UInt8)
    (hv : ∀ b, v ≠ .bytes b) (hv' : ∀ b, v' ≠ .bytes b)
    (hc : ∀ b, com ≠ .bytes b) (hc' : ∀ b, com' ≠ .bytes b)
    (h : (Ex.fullEnv 3).challengeInput id v com m = .ok i)
    (h' : (Ex.fullEnv 3).challengeInput id' v' com' m' = .ok i) :
    id = id' ∧ content v = content v' ∧ content com = content com' ∧ m = m' := by
  obtain ⟨h1, h2, h3, h4⟩ := C12_input_injective_partial (Ex.fullEnv 3)
    (fun a b x y h => by rw [(Ex.encId_inj a b x y h).1]) (fun a b x y h => Ex.enc_inj _ _ x y h)
    (fun a b h => (Ex.st_inj (x := []) (y := []) (by rw [List.append_nil, List.append_nil]; exact h)).1)
    id id' v v' com com' m m' i hv hv' hc hc' h h'
  exact ⟨(Ex.encId_inj id id' [] [] (by rw [List.append_nil, List.append_nil]; exact h1)).1, h2, h3, h4⟩

/-- **C12** (violation found) Raw `bytes` precommitments are hashed without encoding, so the challenge
input does *not* determine the precommitment: a proof of a DLRep statement accepted without a
precommitment is also accepted, for the same message, after its precommitment has been replaced by the
encoding of `None` as bytes. -/
theorem C12_precommitment_malleable (env : Env E) (σ : Store) (s : DLRep E) (c : Int) (r : Val E)
    (h : List UInt8) (m : String)
    (hacc : verify env σ (.leaf s : Core E) ⟨c, r, .none, h⟩ m = .ok true) :
    verify env σ (.leaf s : Core E) ⟨c, r, .bytes (env.encode .none), h⟩ m = .ok true := by
  unfold verify at hacc ⊢
  exact hacc

example : verify (Ex.env 3) Ex.σ (.leaf Ex.rep1 : Core (ZMod 7))
    ⟨3, .list [.int 1, .int 4], .none, []⟩ "" = .ok true := by rfl

/-! ### C20 -/

/-- **C20** `recompute_commitment` of an or-statement returns only if the sub-challenges are a list of
integers whose sum is the challenge modulo 2^128 … -/
theorem C20_sum (sim : Bool) (subs : List (Stmt E)) (c : Int) (r com : Val E)
    (h : Tree.recompute (.or sim subs) c r = .ok com) :
    ∃ cs : List Int, r.index 0 = .ok (.list (cs.map .int)) ∧ cs.sum % 2 ^ 128 = c % 2 ^ 128 := by
  simp only [Tree.recompute] at h
  obtain ⟨v0, hv0, h⟩ := bind_ok_iff.mp h
  obtain ⟨rs, hrs, h⟩ := bind_ok_iff.mp h
  obtain ⟨cs, hcs, h⟩ := bind_ok_iff.mp h
  rw [asIntList_ok] at hcs; rw [hcs] at hv0
  split at h
  · cases h
  · rename_i hres
    exact ⟨cs, hv0, residual_zero_iff.mp (by simpa using hres)⟩

/-- **C20** … and if they do not add up it raises `InconsistentChallengeError`, whatever else is in the
responses. -/
theorem C20_raises (sim : Bool) (subs : List (Stmt E)) (c : Int) (r rs : Val E) (cs : List Int)
    (hcs : r.index 0 = .ok (.list (cs.map .int))) (hrs : r.index 1 = .ok rs)
    (hsum : cs.sum % 2 ^ 128 ≠ c % 2 ^ 128) :
    Tree.recompute (.or sim subs) c r = .error .inconsistentChallenge := by
  simp only [Tree.recompute]
  rw [hcs, bind_ok, hrs, bind_ok, asIntList_ok.mpr rfl, bind_ok]
  rw [if_pos (fun h => hsum (residual_zero_iff.mp h))]

example : Tree.recompute (.or false [.leaf (.dlrep Ex.rep1), .leaf (.dlrep Ex.rep2)] : Stmt (ZMod 7)) 10
      (.tuple [.list [.int 4, .int 6], .list [.list [.int 0, .int 1], .list [.int 3]]])
      = .ok (.list [.pt (Ex.P 5), .pt (Ex.P 1)]) ∧
    Tree.recompute (.or false [.leaf (.dlrep Ex.rep1), .leaf (.dlrep Ex.rep2)] : Stmt (ZMod 7)) 10
      (.tuple [.list [.int 4, .int 5], .list [.list [.int 0, .int 1], .list [.int 3]]])
      = .error .inconsistentChallenge := by
  constructor <;> rfl

/-! ### C21 -/

/-- **C21** If two occurrences of a secret outside or-clauses are given different responses, no
verification returns a verdict. -/
theorem C21_never_accepts (env : Env E) (σ : Store) (t : Stmt E) (nizk : NIZK E) (msg : String)
    (S : Skel E) (k : Core E) (hd : DigestedTop σ t nizk.precommitment S k) (x y : Sec)
    (v v' : Val E) (hx : Occ k nizk.responses x v) (hy : Occ k nizk.responses y v')
    (hxy : σ.key x = σ.key y) (hv : v ≠ v') (b : Bool) : verify env σ t nizk msg ≠ .ok b := by
  intro h
  obtain ⟨S', k', id, com, ρ, c, h1, h2, h3, h4, _⟩ := (verify_iff env σ t nizk msg b).mp h
  obtain ⟨t1, ht1, hv1⟩ := digest_of_top hd
  obtain ⟨t2, ht2, hv2⟩ := digest_of_top h1
  rw [ht1] at ht2; cases ht2
  obtain ⟨d', hd'⟩ := consistency_iff.mpr ⟨ρ, h4⟩
  rw [← hv2.2.consistency, hv1.2.consistency] at hd'
  obtain ⟨ρ', h4'⟩ := consistency_iff.mp ⟨d', hd'⟩
  apply hv
  rw [occ_agree hx h4', occ_agree hy h4', hxy]

/-- When all responses are there the consistency check gives an answer. -/
theorem consistency_total (σ : Store) : ∀ (t : Core E) (r : Val E), Covers t r →
    ∀ d, ∃ b d', Tree.consistency σ t r d = .ok (b, d') := by
  intro t
  induction t using Tree.ind with
  | leaf s =>
    intro r h d
    cases h with
    | rep s r h =>
      have : ∀ (vs : List Sec) (i : Nat) (d : Dict (Val E)),
          (∀ j, j < vs.length → ∃ v, r.index (i + j) = .ok v) →
          ∃ b d', DLRep.consistencyGo σ r vs i d = .ok (b, d') := by
        intro vs
        induction vs with
        | nil => intro i d _; exact ⟨true, d, rfl⟩
        | cons x xs ih =>
          intro i d h
          obtain ⟨v, hv⟩ := h 0 (by simp)
          have hrest : ∀ j, j < xs.length → ∃ v, r.index (i + 1 + j) = .ok v := by
            intro j hj
            obtain ⟨u, hu⟩ := h (j + 1) (by simp; omega)
            exact ⟨u, by rw [← hu]; congr 1; omega⟩
          simp only [Nat.add_zero] at hv
          simp only [DLRep.consistencyGo]
          split
          · rw [hv, bind_ok]
            split
            · exact ⟨false, d, rfl⟩
            · exact ih (i + 1) d hrest
          · rw [hv, bind_ok]
            exact ih (i + 1) _ hrest
      exact this s.secretVars 0 d (by simpa using h)
  | and sim subs ih =>
    intro r h d
    cases h with
    | all sim subs r ri hri h =>
      have : ∀ (ts : List (Core E)) (i : Nat) (d : Dict (Val E)), (∀ t ∈ ts, t ∈ subs) →
          (∀ (j : Nat) (t : Core E), ts[j]? = some t → r.index (i + j) = .ok (ri (i + j)) ∧
            Covers t (ri (i + j))) →
          ∃ b d', Tree.consistencyAnd σ ts i r d = .ok (b, d') := by
        intro ts
        induction ts with
        | nil => intro i d _ _; exact ⟨true, d, rfl⟩
        | cons t ts ihl =>
          intro i d hm h
          obtain ⟨h0, hc⟩ := h 0 t rfl
          simp only [Nat.add_zero] at h0 hc
          obtain ⟨b, d', hb⟩ := ih t (hm t (by simp)) _ hc d
          simp only [Tree.consistencyAnd]
          rw [h0, bind_ok, hb, bind_ok]
          cases b with
          | false => exact ⟨false, d', rfl⟩
          | true =>
            refine ihl (i + 1) d' (fun t ht => hm t (by simp [ht])) ?_
            intro j t' ht'
            have := h (j + 1) t' (by simpa using ht')
            rwa [show i + (j + 1) = i + 1 + j by omega] at this
      refine this subs 0 d (fun _ h => h) ?_
      intro j t ht
      rw [Nat.zero_add]
      exact ⟨hri j (List.getElem?_eq_some_iff.mp ht).1, h j t ht⟩
  | or sim subs ih =>
    intro r h d
    cases h with
    | any sim subs r rs ri hrs hri h =>
      have : ∀ (ts : List (Core E)) (i : Nat), (∀ t ∈ ts, t ∈ subs) →
          (∀ (j : Nat) (t : Core E), ts[j]? = some t → rs.index (i + j) = .ok (ri (i + j)) ∧
            Covers t (ri (i + j))) →
          ∃ b, Tree.consistencyOr σ ts i r = .ok b := by
        intro ts
        induction ts with
        | nil => intro i _ _; exact ⟨true, rfl⟩
        | cons t ts ihl =>
          intro i hm h
          obtain ⟨h0, hc⟩ := h 0 t rfl
          simp only [Nat.add_zero] at h0 hc
          obtain ⟨b, d', hb⟩ := ih t (hm t (by simp)) _ hc []
          simp only [Tree.consistencyOr]
          rw [hrs, bind_ok, h0, bind_ok, hb, bind_ok]
          cases b with
          | false => exact ⟨false, rfl⟩
          | true =>
            refine ihl (i + 1) (fun t ht => hm t (by simp [ht])) ?_
            intro j t' ht'
            have := h (j + 1) t' (by simpa using ht')
            rwa [show i + (j + 1) = i + 1 + j by omega] at this
      obtain ⟨b, hb⟩ := this subs 0 (fun _ h => h) (by
        intro j t ht
        rw [Nat.zero_add]
        exact ⟨hri j (List.getElem?_eq_some_iff.mp ht).1, h j t ht⟩)
      exact ⟨b, d, by simp only [Tree.consistency]; rw [hb]; rfl⟩

/-- **C21** For a plain statement, a matching hash and complete responses, the exception is
`ValidationError`. -/
theorem C21_raises (env : Env E) (σ : Store) (k : Core E) (nizk : NIZK E) (msg : String)
    (hpre : nizk.precommitment = .none) (id : PId E) (hid : Tree.proofId σ k = .ok id)
    (hh : nizk.stmtHash = env.digest id) (hcov : Covers k nizk.responses) (x y : Sec) (v v' : Val E)
    (hx : Occ k nizk.responses x v) (hy : Occ k nizk.responses y v') (hxy : σ.key x = σ.key y)
    (hv : v ≠ v') : verify env σ k nizk msg = .error .validation := by
  obtain ⟨b, d', hb⟩ := consistency_total σ k nizk.responses hcov []
  have hbf : b = false := by
    cases b with
    | false => rfl
    | true =>
      obtain ⟨ρ, hρ⟩ := consistency_iff.mp ⟨d', hb⟩
      exact absurd (by rw [occ_agree hx hρ, occ_agree hy hρ, hxy]) hv
  subst hbf
  unfold verify
  rw [fresh_core, hpre]
  simp only [digestPrecommitment, Val.isNone, if_true, bind_ok]
  unfold checkStatement
  rw [hid, bind_ok, hh]
  simp only [ne_eq, not_true_eq_false, if_false, bind_ok]
  unfold preVerification
  rw [validate_core, bind_ok, hb, bind_ok]
  rfl

example : verify (Ex.env 3) Ex.σ (.and false [.leaf Ex.rep1, .leaf Ex.rep2])
    ⟨3, .list [.list [.int 1, .int 4], .list [.int 8]], .none, []⟩ "" = .error .validation := by rfl

end Zksk.Props
