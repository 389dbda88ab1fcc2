import Verif.Lemmas.Decl

/-! The acceptance criterion: `verify = ok true` in declarative terms. -/

set_option linter.unusedSectionVars false

namespace Zksk

open Spec

variable {E : Type} [AddCommGroup E] [DecidableEq E]

/-! ### Identifiers -/

theorem idsOf_canonical {σ : Store} (vs : List Sec) :
    DLRep.idsOf σ (assignSecretIds (vs.map σ.name)) vs = .ok (canonicalIds (vs.map σ.name)) := by
  rw [idsOf_eq]
  unfold canonicalIds
  rw [List.map_map, List.map_map]
  apply List.map_congr_left
  intro s hs
  simp only [Function.comp]
  rw [assign_lookup]
  have : σ.name s ∈ distinct (vs.map σ.name) := mem_distinct.mpr (List.mem_map_of_mem hs)
  rw [List.getElem?_eq_getElem (List.idxOf_lt_length_iff.mpr this)]
  simp

theorem proofId_iff {L : Type} [StmtOps E L] [StmtView E L] {σ : Store} {t : Tree L} {S : Skel E}
    {vs : List Sec} (hS : Tree.skel t = some S) (hvs : Tree.secretVars t = .ok vs) {id : PId E} :
    Tree.proofId σ t = .ok id ↔ IsId S (vs.map σ.name) id := by
  obtain ⟨id', vs', hid', hvs'⟩ := Tree.proofId_isOk (σ := σ) hS
  obtain ⟨S', vs'', is, h1, h2, h3, h4, h5, h6⟩ := Tree.proofId_ok hid'
  rw [hS] at h1; injection h1 with h1; subst h1
  rw [hvs] at h2; injection h2 with h2; subst h2
  rw [idsOf_canonical] at h3; injection h3 with h3; subst h3
  rw [hid']
  constructor
  · intro h; injection h with h; subst h; exact ⟨h6, h4, h5⟩
  · rintro ⟨k1, k2, k3⟩
    rw [PId.ext_of id' id h6 k1 (by rw [h4, k2]) (by rw [h5, k3])]

/-! ### The generic views on `Stmt` are the specification's -/

theorem skel_stmt_ext (s : Ext E) :
    Tree.skel (.leaf (.ext s) : Stmt E) = s.constructed.map
      fun t => .ext s.spec.cls s.precommitment (shape t) := by
  simp only [Tree.skel, StmtView.skel]
  cases s.constructed with
  | none => rfl
  | some t => simp only [Option.bind_some, skel_core, Option.map_some]

mutual
theorem skel_stmt : ∀ (t : Stmt E), Tree.skel t = stmtShape t
  | .leaf (.dlrep s) => by simp only [Tree.skel, StmtView.skel, stmtShape]
  | .leaf (.ext s) => by rw [skel_stmt_ext]; simp only [stmtShape]
  | .and b subs => by simp only [Tree.skel, stmtShape, skelL_stmt subs]
  | .or b subs => by simp only [Tree.skel, stmtShape, skelL_stmt subs]
theorem skelL_stmt : ∀ (ts : List (Stmt E)), Tree.skelL ts = stmtShapeL ts
  | [] => by simp only [Tree.skelL, stmtShapeL]
  | t :: ts => by simp only [Tree.skelL, stmtShapeL, skel_stmt t, skelL_stmt ts]
end

mutual
theorem secretVars_stmt : ∀ (t : Stmt E) (vs : List Sec),
    Tree.secretVars t = .ok vs ↔ stmtSecrets t = some vs
  | .leaf (.dlrep s), vs => by simp [Tree.secretVars, StmtOps.secretVars, stmtSecrets]
  | .leaf (.ext s), vs => by
    simp only [Tree.secretVars, StmtOps.secretVars, stmtSecrets, Ext.inner]
    cases s.constructed with
    | none => simp [bind_err]
    | some t => simp only [bind_ok, secretVars_core, Option.map_some, Except.ok.injEq,
        Option.some.injEq]
  | .and b subs, vs => by simp only [Tree.secretVars, stmtSecrets, secretVarsL_stmt subs]
  | .or b subs, vs => by simp only [Tree.secretVars, stmtSecrets, secretVarsL_stmt subs]
theorem secretVarsL_stmt : ∀ (ts : List (Stmt E)) (vs : List Sec),
    Tree.secretVarsL ts = .ok vs ↔ stmtSecretsL ts = some vs
  | [], vs => by simp [Tree.secretVarsL, stmtSecretsL]
  | t :: ts, vs => by
    simp only [Tree.secretVarsL, stmtSecretsL, bind_ok_iff, Option.bind_eq_some_iff,
      Option.map_eq_some_iff, Except.ok.injEq, secretVars_stmt t, secretVarsL_stmt ts]
end

/-! ### Digesting precommitments -/

mutual
/-- Every extended leaf has a verifier attached. -/
def HasVer : Stmt E → Prop
  | .leaf (.dlrep _) => True
  | .leaf (.ext s) => s.verifier.isSome = true
  | .and _ subs => HasVerL subs
  | .or _ subs => HasVerL subs
def HasVerL : List (Stmt E) → Prop
  | [] => True
  | t :: ts => HasVer t ∧ HasVerL ts
end

mutual
theorem hasVer_of_consistency (σ : Store) : ∀ (t : Stmt E) (r : Val E) (d d' : Dict (Val E)),
    Tree.consistency σ t r d = .ok (true, d') → HasVer t
  | .leaf (.dlrep s), r, d, d', h => trivial
  | .leaf (.ext s), r, d, d', h => by
    simp only [Tree.consistency, StmtOps.consistency, Ext.consistency] at h
    cases hv : s.verifier with
    | none => rw [hv] at h; cases h
    | some t => simp [HasVer, hv]
  | .and b subs, r, d, d', h => by
    simp only [Tree.consistency] at h
    exact hasVer_of_consistencyAnd σ subs 0 r d d' h
  | .or b subs, r, d, d', h => by
    simp only [Tree.consistency] at h
    obtain ⟨b', hb, h⟩ := bind_ok_iff.mp h
    simp only [Except.ok.injEq, Prod.mk.injEq] at h
    rw [h.1] at hb
    exact hasVer_of_consistencyOr σ subs 0 r hb
theorem hasVer_of_consistencyAnd (σ : Store) : ∀ (ts : List (Stmt E)) (i : Nat) (r : Val E)
    (d d' : Dict (Val E)), Tree.consistencyAnd σ ts i r d = .ok (true, d') → HasVerL ts
  | [], _, _, _, _, _ => trivial
  | t :: ts, i, r, d, d', h => by
    simp only [Tree.consistencyAnd] at h
    obtain ⟨r0, hr0, h⟩ := bind_ok_iff.mp h
    obtain ⟨⟨b, d1⟩, hb, h⟩ := bind_ok_iff.mp h
    simp only [] at h
    cases b with
    | false => simp at h
    | true =>
      simp only [if_true] at h
      exact ⟨hasVer_of_consistency σ t _ _ _ hb, hasVer_of_consistencyAnd σ ts _ _ _ _ h⟩
theorem hasVer_of_consistencyOr (σ : Store) : ∀ (ts : List (Stmt E)) (i : Nat) (r : Val E),
    Tree.consistencyOr σ ts i r = .ok true → HasVerL ts
  | [], _, _, _ => trivial
  | t :: ts, i, r, h => by
    simp only [Tree.consistencyOr] at h
    obtain ⟨r1, hr1, h⟩ := bind_ok_iff.mp h
    obtain ⟨r0, hr0, h⟩ := bind_ok_iff.mp h
    obtain ⟨⟨b, d1⟩, hb, h⟩ := bind_ok_iff.mp h
    simp only [] at h
    cases b with
    | false => simp at h
    | true =>
      simp only [if_true] at h
      exact ⟨hasVer_of_consistency σ t _ _ _ hb, hasVer_of_consistencyOr σ ts _ _ h⟩
end

mutual
theorem embed_of_hasVer : ∀ (t : Stmt E), HasVer (Tree.freshVerifier t) → ∃ k, t = embed k
  | .leaf (.dlrep s), _ => ⟨.leaf s, by simp [embed]⟩
  | .leaf (.ext s), h => by simp [Tree.freshVerifier, StmtOps.freshVerifier, HasVer] at h
  | .and b subs, h => by
    simp only [Tree.freshVerifier, HasVer] at h
    obtain ⟨ks, hk⟩ := embedL_of_hasVer subs h
    exact ⟨.and b ks, by simp [embed, hk]⟩
  | .or b subs, h => by
    simp only [Tree.freshVerifier, HasVer] at h
    obtain ⟨ks, hk⟩ := embedL_of_hasVer subs h
    exact ⟨.or b ks, by simp [embed, hk]⟩
theorem embedL_of_hasVer : ∀ (ts : List (Stmt E)), HasVerL (Tree.freshVerifierL ts) →
    ∃ ks, ts = embedL ks
  | [], _ => ⟨[], by simp [embedL]⟩
  | t :: ts, h => by
    simp only [Tree.freshVerifierL, HasVerL] at h
    obtain ⟨k, hk⟩ := embed_of_hasVer t h.1
    obtain ⟨ks, hks⟩ := embedL_of_hasVer ts h.2
    exact ⟨k :: ks, by simp [embedL, hk, hks]⟩
end

/-- `t1` has shape `S`, stands for `k`, and its verifiers are up to date. -/
def View (t1 : Stmt E) (S : Skel E) (k : Core E) : Prop :=
  Tree.skel t1 = some S ∧ Tree.core t1 = Tree.core k ∧ Tree.Ready t1

/-- `View` for lists. -/
def ViewL (ts : List (Stmt E)) (Ss : List (Skel E)) (ks : List (Core E)) : Prop :=
  Tree.skelL ts = some Ss ∧ Tree.coreL ts = Tree.coreL ks ∧ Tree.ReadyL ts

mutual
theorem view_embed : ∀ (k : Core E), View (embed k) (shape k) k ∧
    Tree.freshVerifier (embed k) = embed k ∧ Tree.fullValidate (embed k) = .ok ()
  | .leaf s => by
    simp [View, embed, Tree.skel, StmtView.skel, shape, Tree.core, StmtView.core, Tree.Ready,
      StmtView.ready, Tree.freshVerifier, StmtOps.freshVerifier, Tree.fullValidate,
      StmtOps.fullValidate]
  | .and b subs => by
    obtain ⟨⟨h1, h2, h3⟩, h4, h5⟩ := viewL_embed subs
    refine ⟨⟨?_, ?_, ?_⟩, ?_, ?_⟩
    · simp [embed, Tree.skel, h1, shape]
    · simp [embed, Tree.core, h2]
    · simpa [embed, Tree.Ready] using h3
    · simp [embed, Tree.freshVerifier, h4]
    · simp only [embed, Tree.fullValidate, h5]
  | .or b subs => by
    obtain ⟨⟨h1, h2, h3⟩, h4, h5⟩ := viewL_embed subs
    refine ⟨⟨?_, ?_, ?_⟩, ?_, ?_⟩
    · simp [embed, Tree.skel, h1, shape]
    · simp [embed, Tree.core, h2]
    · simpa [embed, Tree.Ready] using h3
    · simp [embed, Tree.freshVerifier, h4]
    · simp only [embed, Tree.fullValidate, h5]
theorem viewL_embed : ∀ (ks : List (Core E)), ViewL (embedL ks) (shapeL ks) ks ∧
    Tree.freshVerifierL (embedL ks) = embedL ks ∧ Tree.fullValidateL (embedL ks) = .ok ()
  | [] => by
    simp [ViewL, embedL, Tree.skelL, shapeL, Tree.coreL, Tree.ReadyL, Tree.freshVerifierL,
      Tree.fullValidateL]
  | k :: ks => by
    obtain ⟨⟨h1, h2, h3⟩, h4, h5⟩ := view_embed k
    obtain ⟨⟨g1, g2, g3⟩, g4, g5⟩ := viewL_embed ks
    refine ⟨⟨?_, ?_, ?_⟩, ?_, ?_⟩
    · simp [embedL, Tree.skelL, h1, g1, shapeL]
    · simp [embedL, Tree.coreL, h2, g2]
    · simp only [embedL, Tree.ReadyL]; exact ⟨h3, g3⟩
    · simp [embedL, Tree.freshVerifierL, h4, g4]
    · simp only [embedL, Tree.fullValidateL, h5, g5, bind_ok]
end

theorem viewL_cons {t1 : Stmt E} {ts1 : List (Stmt E)} {S : Skel E} {Ss : List (Skel E)}
    {k : Core E} {ks : List (Core E)} (h : View t1 S k) (h' : ViewL ts1 Ss ks) :
    ViewL (t1 :: ts1) (S :: Ss) (k :: ks) := by
  obtain ⟨h1, h2, h3⟩ := h
  obtain ⟨g1, g2, g3⟩ := h'
  exact ⟨by simp [Tree.skelL, h1, g1], by simp [Tree.coreL, h2, g2], h3, g3⟩

theorem view_ext (s : Ext E) (v : Val E) (t : Core E) :
    View (.leaf (.ext ⟨s.spec, s.simulated, v, some t, some (Tree.freshVerifier t)⟩))
      (.ext s.spec.cls v (shape t)) t := by
  refine ⟨by rw [skel_stmt_ext]; rfl, ?_, ?_⟩
  · simp [Tree.core, StmtView.core]
  · simp only [Tree.Ready, StmtView.ready]
    exact ⟨_, rfl, t, rfl, by rw [fresh_core], ready_core _⟩

theorem isNone_iff {v : Val E} : v.isNone = true ↔ v = .none := by cases v <;> simp [Val.isNone]

/-- Digesting, forwards. -/
theorem digested_of_process (σ : Store) : ∀ (t : Stmt E) (v : Val E) (t1 : Stmt E),
    Tree.process σ (Tree.freshVerifier t) v = .ok t1 → Tree.fullValidate t1 = .ok () →
    HasVer t1 → ∃ S k, Digested σ t v S k ∧ View t1 S k := by
  have key : ∀ (ts : List (Stmt E)), (∀ t ∈ ts, ∀ (v : Val E) (t1 : Stmt E),
      Tree.process σ (Tree.freshVerifier t) v = .ok t1 → Tree.fullValidate t1 = .ok () →
      HasVer t1 → ∃ S k, Digested σ t v S k ∧ View t1 S k) →
      ∀ (i : Nat) (v : Val E) (ts1 : List (Stmt E)),
      Tree.processL σ (Tree.freshVerifierL ts) i v = .ok ts1 → Tree.fullValidateL ts1 = .ok () →
      HasVerL ts1 → ∃ (vi : Nat → Val E) (Ss : List (Skel E)) (ks : List (Core E)),
        Ss.length = ts.length ∧ ks.length = ts.length ∧
        (∀ j, j < ts.length → v.index (i + j) = .ok (vi j)) ∧
        (∀ j t S k, ts[j]? = some t → Ss[j]? = some S → ks[j]? = some k →
          Digested σ t (vi j) S k) ∧ ViewL ts1 Ss ks := by
    intro ts
    induction ts with
    | nil =>
      intro _ i v ts1 h _ _
      simp only [Tree.freshVerifierL, Tree.processL, Except.ok.injEq] at h
      subst h
      exact ⟨fun _ => .none, [], [], rfl, rfl, by simp, by simp, by
        simp [ViewL, Tree.skelL, Tree.coreL, Tree.ReadyL]⟩
    | cons t ts ih =>
      intro hts i v ts1 h hval hver
      simp only [Tree.freshVerifierL, Tree.processL] at h
      obtain ⟨v0, hv0, h⟩ := bind_ok_iff.mp h
      obtain ⟨t1, ht1, h⟩ := bind_ok_iff.mp h
      obtain ⟨ts', hts', h⟩ := bind_ok_iff.mp h
      injection h with h; subst h
      simp only [Tree.fullValidateL] at hval
      obtain ⟨_, hval1, hval2⟩ := bind_ok_iff.mp hval
      simp only [HasVerL] at hver
      obtain ⟨S, k, hd, hview⟩ := hts t (by simp) v0 t1 ht1 hval1 hver.1
      obtain ⟨vi, Ss, ks, e1, e2, e3, e4, e5⟩ := ih (fun t ht => hts t (by simp [ht])) (i + 1) v ts'
        hts' hval2 hver.2
      refine ⟨fun j => if j = 0 then v0 else vi (j - 1), S :: Ss, k :: ks, by simp [e1],
        by simp [e2], ?_, ?_, viewL_cons hview e5⟩
      · intro j hj
        cases j with
        | zero => simpa using hv0
        | succ j =>
          simp only [List.length_cons] at hj
          simp only [Nat.succ_ne_zero, if_false, Nat.add_sub_cancel]
          rw [← e3 j (by omega)]; congr 1; omega
      · intro j t' S' k' ht hS hk
        cases j with
        | zero =>
          simp at ht hS hk; subst ht; subst hS; subst hk
          simpa using hd
        | succ j =>
          simp at ht hS hk
          simpa using e4 j t' S' k' ht hS hk
  intro t
  induction t using Tree.ind with
  | leaf l =>
    intro v t1 h hval hver
    cases l with
    | dlrep s =>
      simp [Tree.freshVerifier, StmtOps.freshVerifier, Tree.process, StmtOps.process, Except.map,
        bind_ok] at h
      subst h
      exact ⟨_, _, Digested.rep s v, (view_embed (.leaf s)).1⟩
    | ext s =>
      simp only [Tree.freshVerifier, StmtOps.freshVerifier, Tree.process, StmtOps.process,
        Ext.process, Ext.fullConstruct] at h
      obtain ⟨l', hl', h⟩ := bind_ok_iff.mp h
      injection h with h; subst h
      obtain ⟨s', hs', h⟩ := map_ok_iff.mp hl'
      subst h
      obtain ⟨s2, hs2, h⟩ := bind_ok_iff.mp hs'
      obtain ⟨t, ht, h2⟩ := bind_ok_iff.mp hs2
      injection h2 with h2; subst h2
      injection h with h; subst h
      simp only [Tree.fullValidate, StmtOps.fullValidate] at hval
      exact ⟨_, t, Digested.ext s v t ht hval, view_ext s v t⟩
  | and b subs ih =>
    intro v t1 h hval hver
    simp only [Tree.freshVerifier, Tree.process] at h
    split at h
    · rename_i hv
      injection h with h; subst h
      have hv' := isNone_iff.mp hv; subst hv'
      have hver' : HasVer (Tree.freshVerifier (Tree.and b subs)) := by
        simpa only [Tree.freshVerifier] using hver
      obtain ⟨k, hk⟩ := embed_of_hasVer (.and b subs) hver'
      rw [hk]
      obtain ⟨hview, hfr, _⟩ := view_embed k
      refine ⟨_, k, Digested.bare k, ?_⟩
      have : (Tree.and b (Tree.freshVerifierL subs) : Stmt E) = Tree.freshVerifier (.and b subs) := by
        simp only [Tree.freshVerifier]
      rw [this, hk, hfr]; exact hview
    · rename_i hv
      obtain ⟨ts1, hts1, h⟩ := bind_ok_iff.mp h
      injection h with h; subst h
      simp only [Tree.fullValidate] at hval
      simp only [HasVer] at hver
      obtain ⟨vi, Ss, ks, e1, e2, e3, e4, e5⟩ := key subs ih 0 v ts1 hts1 hval hver
      refine ⟨.all Ss, .and b ks, Digested.all b subs v vi Ss ks (fun e => hv (isNone_iff.mpr e)) e1
        e2 (fun i hi => by simpa using e3 i hi) e4, ?_⟩
      obtain ⟨g1, g2, g3⟩ := e5
      exact ⟨by simp [Tree.skel, g1], by simp [Tree.core, g2], by simpa [Tree.Ready] using g3⟩
  | or b subs ih =>
    intro v t1 h hval hver
    simp only [Tree.freshVerifier, Tree.process] at h
    split at h
    · rename_i hv
      injection h with h; subst h
      have hv' := isNone_iff.mp hv; subst hv'
      have hver' : HasVer (Tree.freshVerifier (Tree.or b subs)) := by
        simpa only [Tree.freshVerifier] using hver
      obtain ⟨k, hk⟩ := embed_of_hasVer (.or b subs) hver'
      rw [hk]
      obtain ⟨hview, hfr, _⟩ := view_embed k
      refine ⟨_, k, Digested.bare k, ?_⟩
      have : (Tree.or b (Tree.freshVerifierL subs) : Stmt E) = Tree.freshVerifier (.or b subs) := by
        simp only [Tree.freshVerifier]
      rw [this, hk, hfr]; exact hview
    · rename_i hv
      obtain ⟨ts1, hts1, h⟩ := bind_ok_iff.mp h
      injection h with h; subst h
      simp only [Tree.fullValidate] at hval
      simp only [HasVer] at hver
      obtain ⟨vi, Ss, ks, e1, e2, e3, e4, e5⟩ := key subs ih 0 v ts1 hts1 hval hver
      refine ⟨.any Ss, .or b ks, Digested.any b subs v vi Ss ks (fun e => hv (isNone_iff.mpr e)) e1
        e2 (fun i hi => by simpa using e3 i hi) e4, ?_⟩
      obtain ⟨g1, g2, g3⟩ := e5
      exact ⟨by simp [Tree.skel, g1], by simp [Tree.core, g2], by simpa [Tree.Ready] using g3⟩

theorem process_embed (σ : Store) (k : Core E) : Tree.process σ (embed k) .none = .ok (embed k) := by
  cases k with
  | leaf s => simp [embed, Tree.process, StmtOps.process, Except.map, bind_ok]
  | and b subs => simp [embed, Tree.process, Val.isNone]
  | or b subs => simp [embed, Tree.process, Val.isNone]

theorem processL_of (σ : Store) (v : Val E) (vi : Nat → Val E) : ∀ (subs : List (Stmt E)) (n : Nat)
    (Ss : List (Skel E)) (ks : List (Core E)), Ss.length = subs.length → ks.length = subs.length →
    (∀ i, i < subs.length → v.index (n + i) = .ok (vi (n + i))) →
    (∀ (i : Nat) (t : Stmt E) (S : Skel E) (k : Core E), subs[i]? = some t →
            Ss[i]? = some S → ks[i]? = some k →
      ∃ t1, Tree.process σ (Tree.freshVerifier t) (vi (n + i)) = .ok t1 ∧
        Tree.fullValidate t1 = .ok () ∧ View t1 S k) →
    ∃ ts1, Tree.processL σ (Tree.freshVerifierL subs) n v = .ok ts1 ∧
      Tree.fullValidateL ts1 = .ok () ∧ ViewL ts1 Ss ks
  | [], n, Ss, ks, hS, hk, _, _ => by
    have : Ss = [] := List.length_eq_zero_iff.mp hS
    have : ks = [] := List.length_eq_zero_iff.mp hk
    subst Ss; subst ks
    exact ⟨[], rfl, rfl, by simp [ViewL, Tree.skelL, Tree.coreL, Tree.ReadyL]⟩
  | t :: ts, n, Ss, ks, hS, hk, hvi, h => by
    cases Ss with
    | nil => simp at hS
    | cons S Ss =>
      cases ks with
      | nil => simp at hk
      | cons k ks =>
        obtain ⟨t1, h1, h2, h3⟩ := h 0 t S k (by simp) (by simp) (by simp)
        obtain ⟨ts1, g1, g2, g3⟩ := processL_of σ v vi ts (n + 1) Ss ks (by simpa using hS)
          (by simpa using hk)
          (fun i hi => by
            have := hvi (i + 1) (by simp; omega)
            rw [show n + 1 + i = n + (i + 1) by omega]; exact this)
          (fun i t' S' k' ht hS hk => by
            have := h (i + 1) t' S' k' (by simpa using ht) (by simpa using hS) (by simpa using hk)
            rw [show n + 1 + i = n + (i + 1) by omega]; exact this)
        refine ⟨t1 :: ts1, ?_, ?_, viewL_cons h3 g3⟩
        · have hv0 := hvi 0 (by simp)
          simp only [Nat.add_zero] at hv0 h1
          simp only [Tree.freshVerifierL, Tree.processL, hv0, bind_ok, h1, g1]
        · simp only [Tree.fullValidateL, h2, g2, bind_ok]

/-- Digesting, backwards. -/
theorem process_of_digested (σ : Store) {t : Stmt E} {v : Val E} {S : Skel E} {k : Core E}
    (h : Digested σ t v S k) :
    ∃ t1, Tree.process σ (Tree.freshVerifier t) v = .ok t1 ∧ Tree.fullValidate t1 = .ok () ∧
      View t1 S k := by
  induction h with
  | bare k =>
    obtain ⟨h1, h2, h3⟩ := view_embed k
    exact ⟨embed k, by rw [h2]; exact process_embed σ k, h3, h1⟩
  | rep s v =>
    exact ⟨.leaf (.dlrep s), by simp [Tree.freshVerifier, StmtOps.freshVerifier, Tree.process,
      StmtOps.process, Except.map, bind_ok], by simp [Tree.fullValidate, StmtOps.fullValidate],
      (view_embed (.leaf s)).1⟩
  | ext s v t hc hv =>
    refine ⟨_, ?_, ?_, view_ext s v t⟩
    · simp [Tree.freshVerifier, StmtOps.freshVerifier, Tree.process,
        StmtOps.process, Ext.process, Ext.fullConstruct, hc, Except.map, bind_ok]
    · simpa only [Tree.fullValidate, StmtOps.fullValidate] using hv
  | all b subs v vi Ss ks hv hS hk hvi h ih =>
    obtain ⟨ts1, h1, h2, g1, g2, g3⟩ := processL_of σ v vi subs 0 Ss ks hS hk
      (fun i hi => by simpa using hvi i hi) (fun i t S k ht hS hk => by
        simpa using ih i t S k ht hS hk)
    refine ⟨.and b ts1, ?_, ?_, ?_⟩
    · have : v.isNone = false := by
        rw [← Bool.not_eq_true]; exact fun e => hv (isNone_iff.mp e)
      simp [Tree.freshVerifier, Tree.process, this, h1, bind_ok]
    · simpa only [Tree.fullValidate] using h2
    · exact ⟨by simp [Tree.skel, g1], by simp [Tree.core, g2], by simpa [Tree.Ready] using g3⟩
  | any b subs v vi Ss ks hv hS hk hvi h ih =>
    obtain ⟨ts1, h1, h2, g1, g2, g3⟩ := processL_of σ v vi subs 0 Ss ks hS hk
      (fun i hi => by simpa using hvi i hi) (fun i t S k ht hS hk => by
        simpa using ih i t S k ht hS hk)
    refine ⟨.or b ts1, ?_, ?_, ?_⟩
    · have : v.isNone = false := by
        rw [← Bool.not_eq_true]; exact fun e => hv (isNone_iff.mp e)
      simp [Tree.freshVerifier, Tree.process, this, h1, bind_ok]
    · simpa only [Tree.fullValidate] using h2
    · exact ⟨by simp [Tree.skel, g1], by simp [Tree.core, g2], by simpa [Tree.Ready] using g3⟩

/-! ### From `View` to the checks -/

section
variable {σ : Store} {t1 : Stmt E} {S : Skel E} {k : Core E}

theorem View.vars (h : View t1 S k) : Tree.secretVars t1 = .ok (secrets k) := by
  obtain ⟨c, hc, _, _⟩ := core_core k
  rw [Tree.core_vars t1 c (by rw [h.2.1, hc]), ← Tree.core_vars k c hc, secretVars_core]

theorem View.recompute (h : View t1 S k) (c : Int) (r : Val E) :
    Tree.recompute t1 c r = Tree.recompute k c r := by
  obtain ⟨k', hc, _, _⟩ := core_core k
  rw [Tree.core_recompute t1 k' c r (by rw [h.2.1, hc]), ← Tree.core_recompute k k' c r hc]

theorem View.consistency (h : View t1 S k) (r : Val E) (d : Dict (Val E)) :
    Tree.consistency σ t1 r d = Tree.consistency σ k r d := by
  obtain ⟨k', hc, _, _⟩ := core_core k
  rw [Tree.core_consistency t1 k' σ r d (by rw [h.2.1, hc]) h.2.2,
    ← Tree.core_consistency k k' σ r d hc (ready_core k)]

theorem View.proofId (h : View t1 S k) {id : PId E} :
    Tree.proofId σ t1 = .ok id ↔ IsId S ((secrets k).map σ.name) id :=
  proofId_iff h.1 h.vars
end

theorem digestedTop_iff {σ : Store} {t : Stmt E} {v : Val E} {t1 : Stmt E}
    (h : digestPrecommitment σ (Tree.freshVerifier t) v = .ok t1)
    (hval : Tree.fullValidate t1 = .ok ()) (hver : HasVer t1) :
    ∃ S k, DigestedTop σ t v S k ∧ View t1 S k := by
  unfold digestPrecommitment at h
  split at h
  · rename_i hv
    injection h with h; subst h
    obtain ⟨k, hk⟩ := embed_of_hasVer t hver
    obtain ⟨h1, h2, h3⟩ := view_embed k
    refine ⟨shape k, k, .inl ⟨isNone_iff.mp hv, hk, rfl⟩, ?_⟩
    rw [hk, h2]; exact h1
  · rename_i hv
    obtain ⟨S, k, h1, h2⟩ := digested_of_process σ t v t1 h hval hver
    exact ⟨S, k, .inr ⟨fun e => hv (isNone_iff.mpr e), h1⟩, h2⟩

theorem digest_of_top {σ : Store} {t : Stmt E} {v : Val E} {S : Skel E} {k : Core E}
    (h : DigestedTop σ t v S k) :
    ∃ t1, digestPrecommitment σ (Tree.freshVerifier t) v = .ok t1 ∧
      Tree.fullValidate t1 = .ok () ∧ View t1 S k := by
  unfold digestPrecommitment
  rcases h with ⟨rfl, rfl, rfl⟩ | ⟨hv, h⟩
  · obtain ⟨h1, h2, h3⟩ := view_embed k
    exact ⟨embed k, by simp [Val.isNone, h2], h3, h1⟩
  · have : v.isNone = false := by
      rw [← Bool.not_eq_true]; exact fun e => hv (isNone_iff.mp e)
    rw [this]
    exact process_of_digested σ h

/-- **Acceptance criterion.** -/
theorem verify_iff (env : Env E) (σ : Store) (t : Stmt E) (nizk : NIZK E) (msg : String) (b : Bool) :
    verify env σ t nizk msg = .ok b ↔
    ∃ S k id com ρ c', DigestedTop σ t nizk.precommitment S k ∧
      IsId S ((secrets k).map σ.name) id ∧ nizk.stmtHash = env.digest id ∧
      Agree σ k nizk.responses ρ ∧
      Eqns k nizk.challenge nizk.responses com ∧
      env.fiatShamir id nizk.precommitment com msg = .ok c' ∧
      b = decide (nizk.challenge = c') := by
  unfold verify
  constructor
  · intro h
    obtain ⟨t1, ht1, h⟩ := bind_ok_iff.mp h
    obtain ⟨id, hid, h⟩ := bind_ok_iff.mp h
    obtain ⟨_, hpre, h⟩ := bind_ok_iff.mp h
    obtain ⟨com, hcom, h⟩ := bind_ok_iff.mp h
    obtain ⟨c', hc', h⟩ := bind_ok_iff.mp h
    have hfin := Except.ok.inj h
    unfold checkStatement at hid
    obtain ⟨id', hid', hid⟩ := bind_ok_iff.mp hid
    split at hid
    · cases hid
    · rename_i hh
      injection hid with hid; subst hid
      unfold preVerification at hpre
      obtain ⟨_, hval, hpre⟩ := bind_ok_iff.mp hpre
      obtain ⟨⟨b', d⟩, hb, hpre⟩ := bind_ok_iff.mp hpre
      cases b' with
      | false => simp at hpre
      | true =>
        have hver := hasVer_of_consistency σ t1 _ _ _ hb
        obtain ⟨S, k, hd, hview⟩ := digestedTop_iff ht1 hval hver
        rw [hview.consistency] at hb
        rw [hview.recompute, recompute_iff] at hcom
        obtain ⟨ρ, hρ⟩ := consistency_iff.mp ⟨d, hb⟩
        exact ⟨S, k, id', com, ρ, c', hd, hview.proofId.mp hid', by simpa using hh, hρ, hcom, hc',
          hfin.symm⟩
  · rintro ⟨S, k, id, com, ρ, c', hd, hid, hh, hρ, hcom, hc', rfl⟩
    obtain ⟨t1, h1, h2, hview⟩ := digest_of_top hd
    obtain ⟨d, hcons⟩ := consistency_iff.mpr ⟨ρ, hρ⟩
    rw [h1]; simp only [bind_ok]
    have e1 : checkStatement env σ t1 nizk.stmtHash = .ok id := by
      unfold checkStatement
      rw [hview.proofId.mpr hid]; simp [bind_ok, hh]
    have e2 : preVerification σ t1 nizk.responses = .ok () := by
      unfold preVerification
      rw [h2]; simp only [bind_ok]; rw [hview.consistency, hcons]; rfl
    rw [e1]; simp only [bind_ok]; rw [e2]; simp only [bind_ok]
    rw [hview.recompute, (recompute_iff _ _ _ _).mpr hcom]
    simp only [bind_ok, hc']

/-! ### Plain statements are a special case -/

mutual
theorem process_embed_map (σ : Store) : ∀ (k : Core E) (v : Val E),
    Tree.process σ (embed k) v = (Tree.process σ k v).map embed
  | .leaf s, v => by
    simp [embed, Tree.process, StmtOps.process, Except.map, bind_ok]
  | .and b subs, v => by
    simp only [embed, Tree.process]
    split
    · simp [Except.map, embed]
    · rw [processL_embed_map σ subs 0 v]
      cases Tree.processL σ subs 0 v <;> simp [Except.map, bind_ok, bind_err, embed]
  | .or b subs, v => by
    simp only [embed, Tree.process]
    split
    · simp [Except.map, embed]
    · rw [processL_embed_map σ subs 0 v]
      cases Tree.processL σ subs 0 v <;> simp [Except.map, bind_ok, bind_err, embed]
theorem processL_embed_map (σ : Store) : ∀ (ks : List (Core E)) (i : Nat) (v : Val E),
    Tree.processL σ (embedL ks) i v = (Tree.processL σ ks i v).map embedL
  | [], i, v => by simp [embedL, Tree.processL, Except.map]
  | k :: ks, i, v => by
    simp only [embedL, Tree.processL]
    cases v.index i with
    | error e => rfl
    | ok vi =>
      simp only [bind_ok]
      rw [process_embed_map σ k vi]
      cases Tree.process σ k vi with
      | error e => rfl
      | ok k' =>
        simp only [Except.map, bind_ok]
        rw [processL_embed_map σ ks (i + 1) v]
        cases Tree.processL σ ks (i + 1) v <;> simp [Except.map, bind_ok, bind_err, embedL]
end

/-- Verifying a plain statement is verifying it as a general statement. -/
theorem verify_embed (env : Env E) (σ : Store) (k : Core E) (nizk : NIZK E) (msg : String) :
    verify env σ (embed k) nizk msg = verify env σ k nizk msg := by
  unfold verify
  obtain ⟨hview, hfr, hval⟩ := view_embed k
  rw [hfr, fresh_core]
  have hd : digestPrecommitment σ (embed k) nizk.precommitment =
      (digestPrecommitment σ k nizk.precommitment).map embed := by
    unfold digestPrecommitment
    split
    · rfl
    · exact process_embed_map σ k _
  rw [hd]
  rcases digest_core σ σ nizk.precommitment (rfl : coreSkel k = coreSkel k) with
    ⟨e, h1, _⟩ | ⟨h1, _⟩
  · rw [h1]; rfl
  · rw [h1]
    simp only [Except.map, bind_ok]
    have hid : Tree.proofId σ (embed k) = Tree.proofId σ k :=
      (Tree.proofId_eq_iff hview.1 (skel_core k) hview.vars (secretVars_core k)).mpr
        ⟨rfl, rfl, fun i j a b a' b' ha hb ha' hb' => by
          rw [ha] at ha'; rw [hb] at hb'; simp_all⟩
    have hc : checkStatement env σ (embed k) nizk.stmtHash
        = checkStatement env σ k nizk.stmtHash := by unfold checkStatement; rw [hid]
    have hp : preVerification σ (embed k) nizk.responses = preVerification σ k nizk.responses := by
      unfold preVerification
      rw [hval, validate_core, hview.consistency]
    rw [hc, hp]
    simp only [hview.recompute]

/-- Shape and meaning of a digested plain statement. -/
theorem digested_embed {σ : Store} {t : Stmt E} {v : Val E} {S : Skel E} {k' : Core E}
    (h : Digested σ t v S k') : ∀ k, t = embed k → k' = k ∧ S = shape k := by
  induction h with
  | bare k' =>
    intro k hk
    have : ∀ a b : Core E, embed a = embed b → a = b := by
      have key : (∀ a : Core E, ∀ b, embed a = embed b → a = b) := by
        intro a
        refine Tree.rec (motive_1 := fun a => ∀ b, embed a = embed b → a = b)
          (motive_2 := fun as => ∀ bs, embedL as = embedL bs → as = bs) ?_ ?_ ?_ ?_ ?_ a
        · intro s b hb; cases b <;> simp [embed] at hb ⊢; exact hb
        · intro s subs ih b hb; cases b <;> simp [embed] at hb ⊢; exact ⟨hb.1, ih _ hb.2⟩
        · intro s subs ih b hb; cases b <;> simp [embed] at hb ⊢; exact ⟨hb.1, ih _ hb.2⟩
        · intro bs hb; cases bs <;> simp [embedL] at hb ⊢
        · intro t ts ih1 ih2 bs hb; cases bs <;> simp [embedL] at hb ⊢
          exact ⟨ih1 _ hb.1, ih2 _ hb.2⟩
      exact key
    have := this _ _ hk; subst this; exact ⟨rfl, rfl⟩
  | rep s v =>
    intro k hk
    cases k <;> simp [embed] at hk
    subst hk; exact ⟨rfl, by simp [shape]⟩
  | ext s v t hc hv => intro k hk; cases k <;> simp [embed] at hk
  | all b subs v vi Ss ks hv hS hk hvi h ih =>
    intro k hk
    cases k with
    | leaf _ => simp [embed] at hk
    | or _ _ => simp [embed] at hk
    | and b' subs' =>
      simp only [embed, Tree.and.injEq] at hk
      obtain ⟨rfl, hk2⟩ := hk
      have : ∀ (subs : List (Stmt E)) (ks subs' : List (Core E)) (Ss : List (Skel E)),
          subs = embedL subs' → Ss.length = subs.length → ks.length = subs.length →
          (∀ (i : Nat) (t : Stmt E) (S : Skel E) (k : Core E), subs[i]? = some t →
            Ss[i]? = some S → ks[i]? = some k →
            ∀ k', t = embed k' → k = k' ∧ S = shape k') → ks = subs' ∧ Ss = shapeL subs' := by
        intro subs
        induction subs with
        | nil =>
          intro ks subs' Ss h1 h2 h3 _
          cases subs' with
          | nil => exact ⟨List.length_eq_zero_iff.mp h3, by
              simpa [shapeL] using List.length_eq_zero_iff.mp h2⟩
          | cons => simp [embedL] at h1
        | cons t ts iht =>
          intro ks subs' Ss h1 h2 h3 h4
          cases subs' with
          | nil => simp [embedL] at h1
          | cons t' ts' =>
            simp only [embedL, List.cons.injEq] at h1
            cases ks with
            | nil => simp at h3
            | cons k ks =>
              cases Ss with
              | nil => simp at h2
              | cons S Ss =>
                obtain ⟨e1, e2⟩ := h4 0 t S k (by simp) (by simp) (by simp) t' h1.1
                obtain ⟨e3, e4⟩ := iht ks ts' Ss h1.2 (by simpa using h2) (by simpa using h3)
                  (fun i t S k a b c => h4 (i + 1) t S k (by simpa using a) (by simpa using b)
                    (by simpa using c))
                simp [e1, e2, e3, e4, shapeL]
      obtain ⟨e1, e2⟩ := this subs ks subs' Ss hk2 hS (by assumption) ih
      simp [e1, e2, shape]
  | any b subs v vi Ss ks hv hS hk hvi h ih =>
    intro k hk
    cases k with
    | leaf _ => simp [embed] at hk
    | and _ _ => simp [embed] at hk
    | or b' subs' =>
      simp only [embed, Tree.or.injEq] at hk
      obtain ⟨rfl, hk2⟩ := hk
      have : ∀ (subs : List (Stmt E)) (ks subs' : List (Core E)) (Ss : List (Skel E)),
          subs = embedL subs' → Ss.length = subs.length → ks.length = subs.length →
          (∀ (i : Nat) (t : Stmt E) (S : Skel E) (k : Core E), subs[i]? = some t →
            Ss[i]? = some S → ks[i]? = some k →
            ∀ k', t = embed k' → k = k' ∧ S = shape k') → ks = subs' ∧ Ss = shapeL subs' := by
        intro subs
        induction subs with
        | nil =>
          intro ks subs' Ss h1 h2 h3 _
          cases subs' with
          | nil => exact ⟨List.length_eq_zero_iff.mp h3, by
              simpa [shapeL] using List.length_eq_zero_iff.mp h2⟩
          | cons => simp [embedL] at h1
        | cons t ts iht =>
          intro ks subs' Ss h1 h2 h3 h4
          cases subs' with
          | nil => simp [embedL] at h1
          | cons t' ts' =>
            simp only [embedL, List.cons.injEq] at h1
            cases ks with
            | nil => simp at h3
            | cons k ks =>
              cases Ss with
              | nil => simp at h2
              | cons S Ss =>
                obtain ⟨e1, e2⟩ := h4 0 t S k (by simp) (by simp) (by simp) t' h1.1
                obtain ⟨e3, e4⟩ := iht ks ts' Ss h1.2 (by simpa using h2) (by simpa using h3)
                  (fun i t S k a b c => h4 (i + 1) t S k (by simpa using a) (by simpa using b)
                    (by simpa using c))
                simp [e1, e2, e3, e4, shapeL]
      obtain ⟨e1, e2⟩ := this subs ks subs' Ss hk2 hS (by assumption) ih
      simp [e1, e2, shape]

end Zksk
