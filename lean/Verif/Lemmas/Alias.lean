import Verif.SpecAlias
import Verif.Lemmas.NotEqualRun

/-! # Lemmas on compositions that contain one statement object several times -/

namespace Zksk.Alias

set_option linter.unusedSectionVars false

variable {E : Type} [AddCommGroup E] [DecidableEq E]

open Spec

/-! ### Forgetting the identities of the objects -/

mutual
theorem separate_secretVars : ∀ t : Tree (Placed E), Tree.secretVars (separate t) = Tree.secretVars t
  | .leaf p => rfl
  | .and s subs => by
    simp only [separate, Tree.secretVars]; exact separate_secretVarsL subs
  | .or s subs => by
    simp only [separate, Tree.secretVars]; exact separate_secretVarsL subs
theorem separate_secretVarsL : ∀ ts : List (Tree (Placed E)),
    Tree.secretVarsL (separateL ts) = Tree.secretVarsL ts
  | [] => rfl
  | t :: ts => by
    simp only [separateL, Tree.secretVarsL, separate_secretVars t, separate_secretVarsL ts]
end

mutual
theorem separate_proofIdWith (σ : Store) (m : IdMap) : ∀ t : Tree (Placed E),
    Tree.proofIdWith σ m (separate t) = Tree.proofIdWith σ m t
  | .leaf p => rfl
  | .and s subs => by simp only [separate, Tree.proofIdWith, separate_proofIdWithL σ m subs]
  | .or s subs => by simp only [separate, Tree.proofIdWith, separate_proofIdWithL σ m subs]
theorem separate_proofIdWithL (σ : Store) (m : IdMap) : ∀ ts : List (Tree (Placed E)),
    Tree.proofIdWithL σ m (separateL ts) = Tree.proofIdWithL σ m ts
  | [] => rfl
  | t :: ts => by
    simp only [separateL, Tree.proofIdWithL, separate_proofIdWith σ m t, separate_proofIdWithL σ m ts]
end

theorem separate_proofId (σ : Store) (t : Tree (Placed E)) :
    Tree.proofId σ (separate t) = Tree.proofId σ t := by
  simp only [Tree.proofId, separate_secretVars, separate_proofIdWith]

mutual
theorem separate_freshVerifier : ∀ t : Tree (Placed E),
    Tree.freshVerifier (separate t) = separate (Tree.freshVerifier t)
  | .leaf p => rfl
  | .and s subs => by simp only [separate, Tree.freshVerifier, separate_freshVerifierL subs]
  | .or s subs => by simp only [separate, Tree.freshVerifier, separate_freshVerifierL subs]
theorem separate_freshVerifierL : ∀ ts : List (Tree (Placed E)),
    Tree.freshVerifierL (separateL ts) = separateL (Tree.freshVerifierL ts)
  | [] => rfl
  | t :: ts => by
    simp only [separateL, Tree.freshVerifierL, separate_freshVerifier t, separate_freshVerifierL ts]
end

mutual
theorem separate_process (σ : Store) : ∀ (t : Tree (Placed E)) (v : Val E),
    Tree.process σ (separate t) v = (Tree.process σ t v).map separate
  | .leaf p, v => by
    simp only [separate, Tree.process, StmtOps.process]
    cases p.leaf <;> simp only
    · rfl
    · rename_i s
      cases h : Ext.process σ s v <;> rfl
  | .and s subs, v => by
    simp only [separate, Tree.process, separate_processL σ subs 0 v]
    split
    · rfl
    · cases Tree.processL σ subs 0 v <;> rfl
  | .or s subs, v => by
    simp only [separate, Tree.process, separate_processL σ subs 0 v]
    split
    · rfl
    · cases Tree.processL σ subs 0 v <;> rfl
theorem separate_processL (σ : Store) : ∀ (ts : List (Tree (Placed E))) (i : Nat) (v : Val E),
    Tree.processL σ (separateL ts) i v = (Tree.processL σ ts i v).map separateL
  | [], _, _ => rfl
  | t :: ts, i, v => by
    simp only [separateL, Tree.processL, separate_processL σ ts]
    cases v.index i with
    | error e => rfl
    | ok vi =>
      simp only [bind, Except.bind, separate_process σ t vi]
      cases Tree.process σ t vi with
      | error e => rfl
      | ok t' => simp only [Except.map]; cases Tree.processL σ ts (i + 1) v <;> rfl
end

mutual
theorem separate_fullValidate : ∀ t : Tree (Placed E), Tree.fullValidate (separate t) = Tree.fullValidate t
  | .leaf p => rfl
  | .and s subs => by simp only [separate, Tree.fullValidate]; exact separate_fullValidateL subs
  | .or s subs => by simp only [separate, Tree.fullValidate]; exact separate_fullValidateL subs
theorem separate_fullValidateL : ∀ ts : List (Tree (Placed E)),
    Tree.fullValidateL (separateL ts) = Tree.fullValidateL ts
  | [] => rfl
  | t :: ts => by
    simp only [separateL, Tree.fullValidateL, separate_fullValidate t, separate_fullValidateL ts]
end

mutual
theorem separate_consistency (σ : Store) : ∀ (t : Tree (Placed E)) (r : Val E) (d : Dict (Val E)),
    Tree.consistency σ (separate t) r d = Tree.consistency σ t r d
  | .leaf p, _, _ => rfl
  | .and s subs, r, d => by
    simp only [separate, Tree.consistency]; exact separate_consistencyAnd σ subs 0 r d
  | .or s subs, r, d => by
    simp only [separate, Tree.consistency, separate_consistencyOr σ subs 0 r]
theorem separate_consistencyAnd (σ : Store) : ∀ (ts : List (Tree (Placed E))) (i : Nat) (r : Val E)
    (d : Dict (Val E)), Tree.consistencyAnd σ (separateL ts) i r d = Tree.consistencyAnd σ ts i r d
  | [], _, _, _ => rfl
  | t :: ts, i, r, d => by
    simp only [separateL, Tree.consistencyAnd, separate_consistency σ t, separate_consistencyAnd σ ts]
theorem separate_consistencyOr (σ : Store) : ∀ (ts : List (Tree (Placed E))) (i : Nat) (r : Val E),
    Tree.consistencyOr σ (separateL ts) i r = Tree.consistencyOr σ ts i r
  | [], _, _ => rfl
  | t :: ts, i, r => by
    simp only [separateL, Tree.consistencyOr, separate_consistency σ t, separate_consistencyOr σ ts]
end

mutual
theorem separate_recompute : ∀ (t : Tree (Placed E)) (c : Int) (r : Val E),
    Tree.recompute (separate t) c r = Tree.recompute t c r
  | .leaf p, _, _ => rfl
  | .and s subs, c, r => by simp only [separate, Tree.recompute, separate_recomputeAnd subs 0 c r]
  | .or s subs, c, r => by simp only [separate, Tree.recompute, separate_recomputeOr subs]
theorem separate_recomputeAnd : ∀ (ts : List (Tree (Placed E))) (i : Nat) (c : Int) (r : Val E),
    Tree.recomputeAnd (separateL ts) i c r = Tree.recomputeAnd ts i c r
  | [], _, _, _ => rfl
  | t :: ts, i, c, r => by
    simp only [separateL, Tree.recomputeAnd, separate_recompute t, separate_recomputeAnd ts]
theorem separate_recomputeOr : ∀ (ts : List (Tree (Placed E))) (i : Nat) (cs : List Int) (r : Val E),
    Tree.recomputeOr (separateL ts) i cs r = Tree.recomputeOr ts i cs r
  | [], _, _, _ => rfl
  | t :: ts, i, cs, r => by
    simp only [separateL, Tree.recomputeOr, separate_recompute t, separate_recomputeOr ts]
end

theorem separate_verifyResponse (σ : Store) (t : Tree (Placed E)) (com : Val E) (c : Int) (r : Val E) :
    verifyResponse σ (separate t) com c r = verifyResponse σ t com c r := by
  simp only [verifyResponse, preVerification, separate_fullValidate, separate_consistency, separate_recompute]

theorem separate_digest (σ : Store) (t : Tree (Placed E)) (v : Val E) :
    digestPrecommitment σ (separate t) v = (digestPrecommitment σ t v).map separate := by
  simp only [digestPrecommitment]
  split
  · rfl
  · exact separate_process σ t v

theorem separate_verify (env : Env E) (σ : Store) (t : Tree (Placed E)) (nizk : NIZK E) (message : String) :
    Zksk.verify env σ (separate t) nizk message = Zksk.verify env σ t nizk message := by
  simp only [Zksk.verify, separate_freshVerifier, separate_digest]
  cases digestPrecommitment σ (Tree.freshVerifier t) nizk.precommitment with
  | error e => rfl
  | ok t1 =>
    simp only [Except.map, bind, Except.bind, checkStatement, preVerification, separate_proofId,
      separate_fullValidate, separate_consistency, separate_recompute]

/-! ### Without sharing nothing changes -/

/-- Identity and kind of a place. -/
def tag (p : Placed E) : Nat × Bool := (p.obj, decide (Extended p))

mutual
theorem freshVerifier_tags : ∀ t : Tree (Placed E), (places (Tree.freshVerifier t)).map tag = (places t).map tag
  | .leaf p => by
    obtain ⟨o, l⟩ := p; cases l <;> rfl
  | .and s subs => by simp only [Tree.freshVerifier, places]; exact freshVerifier_tagsL subs
  | .or s subs => by simp only [Tree.freshVerifier, places]; exact freshVerifier_tagsL subs
theorem freshVerifier_tagsL : ∀ ts : List (Tree (Placed E)),
    (placesL (Tree.freshVerifierL ts)).map tag = (placesL ts).map tag
  | [] => rfl
  | t :: ts => by
    simp only [Tree.freshVerifierL, placesL, List.map_append, freshVerifier_tags t, freshVerifier_tagsL ts]
end

mutual
theorem process_tags (σ : Store) : ∀ (t : Tree (Placed E)) (v : Val E) {t1 : Tree (Placed E)},
    Tree.process σ t v = .ok t1 → (places t1).map tag = (places t).map tag
  | .leaf p, v, t1, h => by
    obtain ⟨o, l⟩ := p
    simp only [Tree.process, StmtOps.process] at h
    cases l with
    | dlrep s =>
      cases h; rfl
    | ext s =>
      simp only at h
      cases hx : Ext.process σ s v with
      | error e => rw [hx] at h; cases h
      | ok s' => rw [hx] at h; cases h; rfl
  | .and s subs, v, t1, h => by
    simp only [Tree.process] at h
    split at h
    · cases h; rfl
    · cases hx : Tree.processL σ subs 0 v with
      | error e => rw [hx] at h; cases h
      | ok s' => rw [hx] at h; cases h; simpa only [places] using process_tagsL σ subs 0 v hx
  | .or s subs, v, t1, h => by
    simp only [Tree.process] at h
    split at h
    · cases h; rfl
    · cases hx : Tree.processL σ subs 0 v with
      | error e => rw [hx] at h; cases h
      | ok s' => rw [hx] at h; cases h; simpa only [places] using process_tagsL σ subs 0 v hx
theorem process_tagsL (σ : Store) : ∀ (ts : List (Tree (Placed E))) (i : Nat) (v : Val E)
    {ts1 : List (Tree (Placed E))}, Tree.processL σ ts i v = .ok ts1 → (placesL ts1).map tag = (placesL ts).map tag
  | [], _, _, ts1, h => by cases h; rfl
  | t :: ts, i, v, ts1, h => by
    simp only [Tree.processL] at h
    cases hi : v.index i with
    | error e => rw [hi] at h; cases h
    | ok vi =>
      rw [hi] at h
      simp only [bind, Except.bind] at h
      cases ht : Tree.process σ t vi with
      | error e => rw [ht] at h; cases h
      | ok t' =>
        rw [ht] at h
        cases hts : Tree.processL σ ts (i + 1) v with
        | error e => simp only [hts] at h; cases h
        | ok ts' =>
          simp only [hts] at h; cases h
          simp only [placesL, List.map_append, process_tags σ t vi ht, process_tagsL σ ts (i + 1) v hts]
end

theorem unshared_tags (l : List (Placed E)) :
    (l.filter (fun p => decide (Extended p))).map Placed.obj = ((l.map tag).filter Prod.snd).map Prod.fst := by
  induction l with
  | nil => rfl
  | cons p l ih =>
    by_cases h : Extended p
    · simp [h, tag, ih]
    · simp [h, tag, ih]

theorem unshared_of_tags {t t1 : Tree (Placed E)} (h : (places t1).map tag = (places t).map tag)
    (hu : Unshared t) : Unshared t1 := by
  unfold Unshared at hu ⊢
  rw [unshared_tags] at hu ⊢
  rwa [h]

/-- What `written` returns was written at some place of the object. -/
theorem written_mem {o : Nat} : ∀ {l : List (Placed E)} {s : Ext E}, written o l = some s → (⟨o, .ext s⟩ : Placed E) ∈ l
  | [], s, h => by cases h
  | p :: ps, s, h => by
    simp only [written] at h
    cases hw : written o ps with
    | some s' =>
      rw [hw] at h; cases h
      exact List.mem_cons_of_mem _ (written_mem hw)
    | none =>
      rw [hw] at h
      obtain ⟨o', l⟩ := p
      cases l with
      | dlrep s' => cases h
      | ext s' =>
        simp only at h
        split at h
        · rename_i hc
          cases h
          rw [← hc.1]
          exact List.mem_cons_self
        · cases h

theorem unshared_eq {l : List (Placed E)} (h : ((l.filter (fun p => decide (Extended p))).map Placed.obj).Nodup)
    {o : Nat} {s s' : Ext E} (h1 : (⟨o, .ext s⟩ : Placed E) ∈ l) (h2 : (⟨o, .ext s'⟩ : Placed E) ∈ l) : s = s' := by
  have m1 : (⟨o, .ext s⟩ : Placed E) ∈ l.filter (fun p => decide (Extended p)) :=
    List.mem_filter.mpr ⟨h1, decide_eq_true trivial⟩
  have m2 : (⟨o, .ext s'⟩ : Placed E) ∈ l.filter (fun p => decide (Extended p)) :=
    List.mem_filter.mpr ⟨h2, decide_eq_true trivial⟩
  have := List.inj_on_of_nodup_map h m1 m2 rfl
  injection this with _ h3
  injection h3

theorem view_unshared {l : List (Placed E)} (h : ((l.filter (fun p => decide (Extended p))).map Placed.obj).Nodup)
    {p : Placed E} (hp : p ∈ l) : view l p = p := by
  obtain ⟨o, lf⟩ := p
  cases lf with
  | dlrep s => rfl
  | ext s =>
    simp only [view]
    cases hw : written o l with
    | none => rfl
    | some w =>
      cases unshared_eq h hp (written_mem hw)
      rfl

mutual
theorem mapPlaces_id {f : Placed E → Placed E} : ∀ t : Tree (Placed E), (∀ p ∈ places t, f p = p) → mapPlaces f t = t
  | .leaf p, h => by simp only [mapPlaces, h p (by simp [places])]
  | .and s subs, h => by simp only [mapPlaces, mapPlaces_idL subs h]
  | .or s subs, h => by simp only [mapPlaces, mapPlaces_idL subs h]
theorem mapPlaces_idL {f : Placed E → Placed E} : ∀ ts : List (Tree (Placed E)),
    (∀ p ∈ placesL ts, f p = p) → mapPlacesL f ts = ts
  | [], _ => rfl
  | t :: ts, h => by
    simp only [mapPlacesL, mapPlaces_id t (fun p hp => h p (by simp [placesL, hp])),
      mapPlaces_idL ts (fun p hp => h p (by simp [placesL, hp]))]
end

theorem settle_unshared {t : Tree (Placed E)} (h : Unshared t) : settle t = t :=
  mapPlaces_id t fun _ hp => view_unshared h hp

theorem digest_unshared {σ : Store} {t t1 : Tree (Placed E)} {v : Val E} (hu : Unshared t)
    (h : digestPrecommitment σ (Tree.freshVerifier t) v = .ok t1) : settle t1 = t1 := by
  apply settle_unshared
  simp only [digestPrecommitment] at h
  split at h
  · cases h
    exact unshared_of_tags (freshVerifier_tags t) hu
  · exact unshared_of_tags ((process_tags σ _ v h).trans (freshVerifier_tags t)) hu

/-! ### One `DLNotEqual` object in all copies of a conjunction -/

/-- Changing the left-hand side shifts the recomputed commitment. -/
theorem dlrep_shift {s : DLRep E} {c : Int} {r com : Val E} {v' : Pt E} (h : DLRep.recompute s c r = .ok com)
    (hg : v'.grp = s.lhs.grp) : ∃ p : Pt E, com = .pt p ∧
      DLRep.recompute { s with lhs := v' } c r = .ok (.pt ⟨p.grp, p.val + c • s.lhs.val - c • v'.val⟩) := by
  unfold DLRep.recompute at h ⊢
  cases he : r.elems with
  | error e => rw [he] at h; cases h
  | ok ws =>
    rw [he] at h
    simp only [bind, Except.bind] at h ⊢
    rw [hg]
    cases hs : s.lhs.grp.wsum ws s.bases with
    | error e => simp only [hs] at h; cases h
    | ok sm =>
      simp only [hs] at h
      by_cases hgr : sm.grp = s.lhs.grp
      · have h1 : sm.add (Pt.smul (-c) s.lhs) = .ok ⟨sm.grp, sm.val + (-c) • s.lhs.val⟩ := if_pos hgr
        have h2 : sm.add (Pt.smul (-c) v') = .ok ⟨sm.grp, sm.val + (-c) • v'.val⟩ := if_pos (hgr.trans hg.symm)
        simp only [h1, h2] at h ⊢
        cases h
        refine ⟨_, rfl, ?_⟩
        simp only [Except.ok.injEq, Val.pt.injEq, Pt.mk.injEq, true_and]
        simp only [neg_smul]
        abel
      · have h1 : sm.add (Pt.smul (-c) s.lhs) = .error .foreign := if_neg hgr
        simp only [h1] at h
        cases h

/-- Changing the precommitment changes the recomputed commitment, unless the challenge hides it. -/
theorem built_shift {s : NotEqual E} {σ : Store} {v v' : Pt E} {c : Int} {r com : Val E}
    (h : Tree.recompute (s.built σ v) c r = .ok com) (hg : v'.grp = v.grp) :
    ∃ com', Tree.recompute (s.built σ v') c r = .ok com' ∧ (com = com' ↔ c • v.val = c • v'.val) := by
  unfold NotEqual.built at h ⊢
  simp only [Tree.recompute, Tree.recomputeAnd, StmtOps.recompute] at h ⊢
  cases h0 : r.index 0 with
  | error e => rw [h0] at h; cases h
  | ok r0 =>
    rw [h0] at h
    simp only [bind, Except.bind] at h ⊢
    cases h1 : DLRep.recompute (⟨s.g.grp.inf, [s.g, s.lhs0], [s.alpha, s.beta],
        knownValues σ [s.alpha, s.beta] [], false⟩ : DLRep E) c r0 with
    | error e => simp only [h1] at h; cases h
    | ok com1 =>
      simp only [h1] at h
      cases h2 : r.index (0 + 1) with
      | error e => simp only [h2] at h; cases h
      | ok r1 =>
        simp only [h2] at h
        cases h3 : DLRep.recompute (⟨v, [s.h, s.lhs1], [s.alpha, s.beta],
            knownValues σ [s.alpha, s.beta] [], false⟩ : DLRep E) c r1 with
        | error e => simp only [h3] at h; cases h
        | ok com2 =>
          simp only [h3] at h
          obtain ⟨p, rfl, h4⟩ := dlrep_shift h3 (v' := v') hg
          simp only at h4
          simp only [h4]
          cases h5 : Tree.recomputeAnd (if s.bind = true then [Tree.leaf (⟨s.lhs0, [s.g], [s.x],
              knownValues σ [s.x] [], false⟩ : DLRep E)] else []) (0 + 1 + 1) c r with
          | error e => simp only [h5] at h; cases h
          | ok coms =>
            simp only [h5] at h
            cases h
            refine ⟨_, rfl, ?_⟩
            simp only [Val.list.injEq, List.cons.injEq, true_and, and_true, Val.pt.injEq]
            constructor
            · intro hp
              have : p.val = p.val + c • v.val - c • v'.val := congrArg Pt.val hp
              have h6 : p.val + c • v.val - c • v'.val = p.val + (c • v.val - c • v'.val) := by abel
              rw [h6] at this
              exact sub_eq_zero.mp (left_eq_add.mp this)
            · intro hp
              rw [hp]
              simp

/-- The representations of a copy. -/
def rest (ds : List (Nat × DLRep E)) : List (Tree (Placed E)) := ds.map fun d => .leaf ⟨d.1, .dlrep d.2⟩

/-- A copy of the conjunction after processing the precommitment `v`. -/
def clause (s : NotEqual E) (ds : List (Nat × DLRep E)) (σ : Store) (v : Pt E) : Tree (Placed E) :=
  .and false (.leaf ⟨0, .ext ⟨s.spec, false, .pt v, some (s.built σ v), some (Tree.freshVerifier (s.built σ v))⟩⟩ :: rest ds)

/-- The same copy once the object has received `w`. -/
def clauseSeen (s : NotEqual E) (ds : List (Nat × DLRep E)) (σ : Store) (w v : Pt E) : Tree (Placed E) :=
  .and false (.leaf ⟨0, .ext ⟨s.spec, false, .pt w, some (s.built σ w), some (Tree.freshVerifier (s.built σ v))⟩⟩ :: rest ds)

theorem rest_process {σ : Store} : ∀ (ds : List (Nat × DLRep E)) (pre : List (Val E)),
    Tree.processL σ (rest ds) pre.length (.list (pre ++ ds.map fun _ => .none)) = .ok (rest ds)
  | [], _ => rfl
  | d :: ds, pre => by
    have ih := rest_process (σ := σ) ds (pre ++ [.none])
    simp only [List.length_append, List.length_singleton, List.append_assoc, List.singleton_append] at ih
    have hi : (Val.list (pre ++ (d :: ds).map fun _ => Val.none) : Val E).index pre.length = .ok .none := by
      simp [Val.index]
    simp only [rest, List.map_cons, Tree.processL] at ih ⊢
    rw [ih]
    simp only [List.map_cons] at hi
    rw [hi]
    rfl

theorem rest_fresh : ∀ ds : List (Nat × DLRep E), Tree.freshVerifierL (rest ds) = rest ds
  | [] => rfl
  | d :: ds => by
    have ih := rest_fresh ds
    simp only [rest, List.map_cons, Tree.freshVerifierL] at ih ⊢
    rw [ih]; rfl

section
variable {s : NotEqual E} (hgrp : ∀ p ∈ [s.lhs0, s.lhs1, s.h], p.grp = s.g.grp)
include hgrp

theorem process_clause {ds : List (Nat × DLRep E)} {σ : Store} (v : Pt E) :
    Tree.process σ (Tree.freshVerifier (conjunction s ds)) (.list (.pt v :: ds.map fun _ => .none)) = .ok (clause s ds σ v) := by
  have g0 : s.lhs0.grp = s.g.grp := hgrp _ (by simp)
  have g1 : s.lhs1.grp = s.g.grp := hgrp _ (by simp)
  have g2 : s.h.grp = s.g.grp := hgrp _ (by simp)
  have hc' : s.spec.construct σ (.pt v) = .ok (s.built σ v) := NotEqual.construct_of g0 (g1.trans g2.symm) σ v
  have hr := rest_process (σ := σ) ds [.pt v]
  simp only [List.length_singleton, List.singleton_append] at hr
  have hf := rest_fresh ds
  simp only [rest] at hr hf
  simp only [conjunction, Tree.freshVerifier, Tree.freshVerifierL, hf, Tree.process, Val.isNone, Bool.false_eq_true,
    if_false, Tree.processL, Nat.zero_add, hr]
  simp only [Val.index, List.getElem?_cons_zero, bind, Except.bind, StmtOps.process, StmtOps.freshVerifier, Ext.process,
    Ext.fullConstruct, hc', Except.map]
  rfl

theorem process_clauses {ds : List (Nat × DLRep E)} {σ : Store} :
    ∀ (vs pre : List (Pt E)), Tree.processL σ (List.replicate vs.length (Tree.freshVerifier (conjunction s ds))) pre.length
      (precommitments ds (pre ++ vs)) = .ok (vs.map (clause s ds σ))
  | [], _ => rfl
  | v :: vs, pre => by
    have ih := process_clauses vs (pre ++ [v]) (ds := ds) (σ := σ)
    simp only [List.length_append, List.length_singleton, List.append_assoc, List.singleton_append] at ih
    simp only [List.length_cons, List.replicate_succ, Tree.processL, ih]
    have hi : (precommitments ds (pre ++ v :: vs)).index pre.length = .ok (.list (.pt v :: ds.map fun _ => .none)) := by
      simp [Val.index, precommitments]
    rw [hi]
    simp only [bind, Except.bind, process_clause hgrp]
    rfl
end

theorem rest_written {o : Nat} : ∀ ds : List (Nat × DLRep E), written o (placesL (rest ds)) = none
  | [] => rfl
  | d :: ds => by
    have ih := rest_written (o := o) ds
    simp only [rest, List.map_cons, placesL, places, List.singleton_append, written] at ih ⊢
    rw [ih]

theorem rest_mapPlaces {all : List (Placed E)} : ∀ ds : List (Nat × DLRep E), mapPlacesL (view all) (rest ds) = rest ds
  | [] => rfl
  | d :: ds => by
    have ih := rest_mapPlaces (all := all) ds
    simp only [rest, List.map_cons, mapPlacesL, mapPlaces] at ih ⊢
    rw [ih]; rfl

theorem written_append {o : Nat} : ∀ l l' : List (Placed E), written o (l ++ l') =
    match written o l' with
    | some s => some s
    | none => written o l
  | [], l' => by
    simp only [List.nil_append]
    cases h : written o l' with
    | some s => rfl
    | none => rfl
  | p :: l, l' => by
    simp only [List.cons_append, written, written_append l l']
    cases written o l' <;> rfl

theorem placesL_append : ∀ l l' : List (Tree (Placed E)), placesL (l ++ l') = placesL l ++ placesL l'
  | [], l' => rfl
  | t :: l, l' => by simp only [List.cons_append, placesL, placesL_append l l', List.append_assoc]

theorem written_clauses {s : NotEqual E} {ds : List (Nat × DLRep E)} {σ : Store} (vs : List (Pt E)) (w : Pt E) :
    written 0 (placesL ((vs ++ [w]).map (clause s ds σ))) =
      some ⟨s.spec, false, .pt w, some (s.built σ w), some (Tree.freshVerifier (s.built σ w))⟩ := by
  rw [List.map_append, placesL_append, written_append]
  have h : written 0 (placesL ([w].map (clause s ds σ))) =
      some ⟨s.spec, false, .pt w, some (s.built σ w), some (Tree.freshVerifier (s.built σ w))⟩ := by
    simp only [List.map_cons, List.map_nil, placesL, List.append_nil, clause, places, List.singleton_append, written,
      rest_written, Option.isSome_some, and_self, if_true]
  rw [h]

theorem mapPlacesL_clauses {s : NotEqual E} {ds : List (Nat × DLRep E)} {σ : Store} {w : Pt E} {all : List (Placed E)}
    (hw : written 0 all = some ⟨s.spec, false, .pt w, some (s.built σ w), some (Tree.freshVerifier (s.built σ w))⟩) :
    ∀ vs : List (Pt E), mapPlacesL (view all) (vs.map (clause s ds σ)) = vs.map (clauseSeen s ds σ w)
  | [] => rfl
  | v :: vs => by
    have h : mapPlaces (view all) (clause s ds σ v) = clauseSeen s ds σ w v := by
      simp only [clause, clauseSeen, mapPlaces, mapPlacesL, rest_mapPlaces, view, hw]
    simp only [List.map_cons, mapPlacesL, h, mapPlacesL_clauses hw vs]

theorem settle_or {s : NotEqual E} {ds : List (Nat × DLRep E)} {σ : Store} {b : Bool} (w : Pt E) (vs : List (Pt E)) :
    settle (.or b ((vs ++ [w]).map (clause s ds σ))) = .or b ((vs ++ [w]).map (clauseSeen s ds σ w)) := by
  simp only [settle, places, mapPlaces]
  rw [mapPlacesL_clauses (written_clauses vs w)]

theorem settle_and {s : NotEqual E} {ds : List (Nat × DLRep E)} {σ : Store} {b : Bool} (w : Pt E) (vs : List (Pt E)) :
    settle (.and b ((vs ++ [w]).map (clause s ds σ))) = .and b ((vs ++ [w]).map (clauseSeen s ds σ w)) := by
  simp only [settle, places, mapPlaces]
  rw [mapPlacesL_clauses (written_clauses vs w)]

/-- Consistency only looks at the verifier objects, which do not depend on the precommitment. -/
theorem consistency_seen {s : NotEqual E} {ds : List (Nat × DLRep E)} {σ : Store} (w v : Pt E) (r : Val E)
    (d : Dict (Val E)) : Tree.consistency σ (clauseSeen s ds σ w v) r d = Tree.consistency σ (clause s ds σ v) r d := rfl

theorem consistency_last {s : NotEqual E} {ds : List (Nat × DLRep E)} {σ : Store} (w v : Pt E) (r : Val E)
    (d : Dict (Val E)) : Tree.consistency σ (clauseSeen s ds σ w v) r d = Tree.consistency σ (clause s ds σ w) r d := rfl

theorem consistencyAnd_congr {σ : Store} {r : Val E} {α : Type} {f g : α → Tree (Placed E)}
    (h : ∀ a r d, Tree.consistency σ (f a) r d = Tree.consistency σ (g a) r d) : ∀ (l : List α) (i : Nat) (d : Dict (Val E)),
      Tree.consistencyAnd σ (l.map f) i r d = Tree.consistencyAnd σ (l.map g) i r d
  | [], _, _ => rfl
  | a :: l, i, d => by simp only [List.map_cons, Tree.consistencyAnd, consistencyAnd_congr h l, h]

theorem consistencyOr_congr {σ : Store} {r : Val E} {α : Type} {f g : α → Tree (Placed E)}
    (h : ∀ a r d, Tree.consistency σ (f a) r d = Tree.consistency σ (g a) r d) : ∀ (l : List α) (i : Nat),
      Tree.consistencyOr σ (l.map f) i r = Tree.consistencyOr σ (l.map g) i r
  | [], _ => rfl
  | a :: l, i => by simp only [List.map_cons, Tree.consistencyOr, consistencyOr_congr h l, h]

theorem fullValidateL_congr {α : Type} {f g : α → Tree (Placed E)} (h : ∀ a, Tree.fullValidate (f a) = Tree.fullValidate (g a)) :
    ∀ l : List α, Tree.fullValidateL (l.map f) = Tree.fullValidateL (l.map g)
  | [] => rfl
  | a :: l => by simp only [List.map_cons, Tree.fullValidateL, fullValidateL_congr h l, h]

theorem recomputeAnd_congr {α : Type} {f g : α → Tree (Placed E)} {c : Int} {r : Val E}
    (h : ∀ a c r, Tree.recompute (f a) c r = Tree.recompute (g a) c r) : ∀ (l : List α) (i : Nat),
      Tree.recomputeAnd (l.map f) i c r = Tree.recomputeAnd (l.map g) i c r
  | [], _ => rfl
  | a :: l, i => by simp only [List.map_cons, Tree.recomputeAnd, recomputeAnd_congr h l, h]

theorem recomputeOr_congr {α : Type} {f g : α → Tree (Placed E)} {cs : List Int} {r : Val E}
    (h : ∀ a c r, Tree.recompute (f a) c r = Tree.recompute (g a) c r) : ∀ (l : List α) (i : Nat),
      Tree.recomputeOr (l.map f) i cs r = Tree.recomputeOr (l.map g) i cs r
  | [], _ => rfl
  | a :: l, i => by simp only [List.map_cons, Tree.recomputeOr, recomputeOr_congr h l, h]

theorem rest_validate : ∀ ds : List (Nat × DLRep E), Tree.fullValidateL (rest ds) = .ok ()
  | [] => rfl
  | d :: ds => by
    have ih := rest_validate ds
    simp only [rest, List.map_cons, Tree.fullValidateL] at ih ⊢
    rw [ih]; rfl

theorem clause_validate {s : NotEqual E} {ds : List (Nat × DLRep E)} {σ : Store} (w v : Pt E) :
    Tree.fullValidate (clauseSeen s ds σ w v) = s.validate (.pt w) := by
  have h : Tree.fullValidate (clauseSeen s ds σ w v) = (do s.validate (.pt w); Tree.fullValidateL (rest ds)) := rfl
  rw [h, rest_validate]
  cases s.validate (.pt w) <;> rfl

theorem fullValidateL_seen {s : NotEqual E} {ds : List (Nat × DLRep E)} {σ : Store} {w : Pt E}
    (hw : s.validate (.pt w) = .ok ()) : ∀ vs : List (Pt E), Tree.fullValidateL (vs.map (clauseSeen s ds σ w)) = .ok ()
  | [] => rfl
  | v :: vs => by
    simp only [List.map_cons, Tree.fullValidateL, clause_validate, hw, fullValidateL_seen hw vs]; rfl

theorem fullValidateL_last {s : NotEqual E} {ds : List (Nat × DLRep E)} {σ : Store} {w : Pt E} : ∀ vs : List (Pt E),
    Tree.fullValidateL ((vs ++ [w]).map (clause s ds σ)) = .ok () → s.validate (.pt w) = .ok ()
  | [], h => by
    have h' : (do let _ ← Tree.fullValidate (clauseSeen s ds σ w w); (.ok () : Except Err Unit)) = .ok () := h
    rw [clause_validate] at h'
    cases hv : s.validate (.pt w) with
    | error e => rw [hv] at h'; cases h'
    | ok u => rfl
  | v :: vs, h => by
    simp only [List.cons_append, List.map_cons, Tree.fullValidateL] at h
    cases hv : Tree.fullValidate (clause s ds σ v) with
    | error e => rw [hv] at h; cases h
    | ok u => rw [hv] at h; exact fullValidateL_last vs h

theorem clause_shift {s : NotEqual E} {ds : List (Nat × DLRep E)} {σ : Store} {w v : Pt E} {c : Int} {r com : Val E}
    (h : Tree.recompute (clause s ds σ v) c r = .ok com) (hg : w.grp = v.grp) :
    ∃ com', Tree.recompute (clauseSeen s ds σ w v) c r = .ok com' ∧ (com = com' ↔ c • v.val = c • w.val) := by
  simp only [clause, clauseSeen, Tree.recompute, Tree.recomputeAnd, StmtOps.recompute, Ext.inner] at h ⊢
  cases h0 : r.index 0 with
  | error e => rw [h0] at h; cases h
  | ok r0 =>
    rw [h0] at h
    simp only [bind, Except.bind] at h ⊢
    cases h1 : Tree.recompute (s.built σ v) c r0 with
    | error e => simp only [h1] at h; cases h
    | ok com1 =>
      simp only [h1] at h
      obtain ⟨com1', h2, h3⟩ := built_shift h1 hg
      simp only [h2]
      cases h4 : Tree.recomputeAnd (rest ds) (0 + 1) c r with
      | error e => simp only [h4] at h; cases h
      | ok coms =>
        simp only [h4] at h
        cases h
        refine ⟨_, rfl, ?_⟩
        simp only [Val.list.injEq, List.cons.injEq, and_true, h3]

theorem recomputeAnd_seen {s : NotEqual E} {ds : List (Nat × DLRep E)} {σ : Store} {w : Pt E} {c : Int} {r : Val E} :
    ∀ (vs : List (Pt E)) (i : Nat) {coms : List (Val E)}, (∀ v ∈ vs, w.grp = v.grp) →
      Tree.recomputeAnd (vs.map (clause s ds σ)) i c r = .ok coms →
      ∃ coms', Tree.recomputeAnd (vs.map (clauseSeen s ds σ w)) i c r = .ok coms' ∧
        (coms = coms' ↔ ∀ v ∈ vs, c • v.val = c • w.val)
  | [], i, coms, _, h => by
    cases h
    exact ⟨[], rfl, by simp⟩
  | v :: vs, i, coms, hg, h => by
    simp only [List.map_cons, Tree.recomputeAnd] at h ⊢
    cases hi : r.index i with
    | error e => rw [hi] at h; cases h
    | ok ri =>
      rw [hi] at h
      simp only [bind, Except.bind] at h ⊢
      cases hk : Tree.recompute (clause s ds σ v) c ri with
      | error e => simp only [hk] at h; cases h
      | ok com =>
        simp only [hk] at h
        obtain ⟨com', h1, h2⟩ := clause_shift hk (hg v (by simp))
        cases hr : Tree.recomputeAnd (vs.map (clause s ds σ)) (i + 1) c r with
        | error e => simp only [hr] at h; cases h
        | ok cs =>
          simp only [hr] at h
          cases h
          obtain ⟨cs', h3, h4⟩ := recomputeAnd_seen vs (i + 1) (fun v hv => hg v (by simp [hv])) hr
          refine ⟨com' :: cs', by simp only [h1, h3], ?_⟩
          simp only [List.cons.injEq, h2, h4, List.forall_mem_cons]

theorem recomputeOr_seen {s : NotEqual E} {ds : List (Nat × DLRep E)} {σ : Store} {w : Pt E} {cs : List Int} {r : Val E} :
    ∀ (vs : List (Pt E)) (i : Nat) {coms : List (Val E)}, (∀ v ∈ vs, w.grp = v.grp) →
      Tree.recomputeOr (vs.map (clause s ds σ)) i cs r = .ok coms →
      ∃ coms', Tree.recomputeOr (vs.map (clauseSeen s ds σ w)) i cs r = .ok coms' ∧
        (coms = coms' ↔ ∀ j v c, vs[j]? = some v → cs[i + j]? = some c → c • v.val = c • w.val)
  | [], i, coms, _, h => by
    cases h
    exact ⟨[], rfl, by simp⟩
  | v :: vs, i, coms, hg, h => by
    simp only [List.map_cons, Tree.recomputeOr] at h ⊢
    cases hc : cs[i]? with
    | none => rw [hc] at h; cases h
    | some c =>
      rw [hc] at h
      cases hi : r.index i with
      | error e => rw [hi] at h; cases h
      | ok ri =>
        rw [hi] at h
        simp only [bind, Except.bind] at h ⊢
        cases hk : Tree.recompute (clause s ds σ v) c ri with
        | error e => simp only [hk] at h; cases h
        | ok com =>
          simp only [hk] at h
          obtain ⟨com', h1, h2⟩ := clause_shift hk (hg v (by simp))
          cases hr : Tree.recomputeOr (vs.map (clause s ds σ)) (i + 1) cs r with
          | error e => simp only [hr] at h; cases h
          | ok coms1 =>
            simp only [hr] at h
            cases h
            obtain ⟨cs', h3, h4⟩ := recomputeOr_seen vs (i + 1) (fun v hv => hg v (by simp [hv])) hr
            refine ⟨com' :: cs', by simp only [h1, h3], ?_⟩
            simp only [List.cons.injEq, h2, h4]
            constructor
            · rintro ⟨ha, hb⟩ j v' c' hj hc'
              match j with
              | 0 =>
                simp only [List.getElem?_cons_zero, Option.some.injEq] at hj
                rw [Nat.add_zero, hc] at hc'
                cases hc'; subst hj; exact ha
              | j + 1 => exact hb j v' c' (by simpa using hj) (by rw [← hc']; congr 1; omega)
            · intro ha
              exact ⟨ha 0 v c (by simp) hc, fun j v' c' hj hc' => ha (j + 1) v' c' (by simpa using hj)
                (by rw [← hc']; congr 1; omega)⟩

theorem asIntList_ints : ∀ cs : List Int, Tree.asIntList (.list (cs.map Val.int) : Val E) = .ok cs := by
  have h : ∀ cs : List Int, (cs.map (Val.int (E := E))).mapM Val.asInt = .ok cs := by
    intro cs
    induction cs with
    | nil => rfl
    | cons c cs ih =>
      rw [List.map_cons, List.mapM_cons, ih]; rfl
  exact h

theorem freshVerifierL_replicate (t : Tree (Placed E)) : ∀ n : Nat,
    Tree.freshVerifierL (List.replicate n t) = List.replicate n (Tree.freshVerifier t)
  | 0 => rfl
  | n + 1 => by simp only [List.replicate_succ, Tree.freshVerifierL, freshVerifierL_replicate t n]

theorem sharedVerdict_eq {s : NotEqual E} (hgrp : ∀ p ∈ [s.lhs0, s.lhs1, s.h], p.grp = s.g.grp)
    (ds : List (Nat × DLRep E)) (σ : Store) (isOr : Bool) (vs : List (Pt E)) (w : Pt E) (com : Val E) (c : Int) (r : Val E) :
    sharedVerdict σ (repeated isOr s ds (vs.length + 1)) (precommitments ds (vs ++ [w])) com c r =
      verifyResponse σ (if isOr then .or false ((vs ++ [w]).map (clauseSeen s ds σ w))
        else .and false ((vs ++ [w]).map (clauseSeen s ds σ w))) com c r := by
  have hp := process_clauses hgrp (vs ++ [w]) [] (σ := σ) (ds := ds)
  simp only [List.length_append, List.length_singleton, List.length_nil, List.nil_append] at hp
  have hn : (precommitments ds (vs ++ [w])).isNone = false := rfl
  have hcp : copyOf 0 (conjunction s ds) = conjunction s ds := rfl
  cases isOr
  · simp only [sharedVerdict, receive, repeated, Bool.false_eq_true, if_false, Tree.freshVerifier,
      freshVerifierL_replicate, Tree.process, hn, hcp, hp]
    simp only [bind, Except.bind, settle_and]
  · simp only [sharedVerdict, receive, repeated, if_true, Tree.freshVerifier,
      freshVerifierL_replicate, Tree.process, hn, hcp, hp, Bool.false_eq_true, if_false]
    simp only [bind, Except.bind, settle_or]

theorem separateVerdict_eq {s : NotEqual E} (hgrp : ∀ p ∈ [s.lhs0, s.lhs1, s.h], p.grp = s.g.grp)
    (ds : List (Nat × DLRep E)) (σ : Store) (isOr : Bool) (vs : List (Pt E)) (com : Val E) (c : Int) (r : Val E) :
    separateVerdict σ (repeated isOr s ds vs.length) (precommitments ds vs) com c r =
      verifyResponse σ (if isOr then .or false (vs.map (clause s ds σ))
        else .and false (vs.map (clause s ds σ))) com c r := by
  have hp := process_clauses hgrp vs [] (σ := σ) (ds := ds)
  simp only [List.length_nil, List.nil_append] at hp
  have hn : (precommitments ds vs).isNone = false := rfl
  have hcp : copyOf 0 (conjunction s ds) = conjunction s ds := rfl
  unfold separateVerdict
  rw [separate_freshVerifier, separate_process]
  cases isOr
  · simp only [repeated, Bool.false_eq_true, if_false, Tree.freshVerifier,
      freshVerifierL_replicate, Tree.process, hn, hcp, hp]
    simp only [bind, Except.bind, Except.map, separate_verifyResponse]
  · simp only [repeated, if_true, Tree.freshVerifier,
      freshVerifierL_replicate, Tree.process, hn, hcp, hp, Bool.false_eq_true, if_false]
    simp only [bind, Except.bind, Except.map, separate_verifyResponse]

theorem accepted_inv {L : Type} [StmtOps E L] {σ : Store} {t : Tree L} {com r : Val E} {c : Int}
    (h : verifyResponse σ t com c r = .ok true) :
    Tree.fullValidate t = .ok () ∧ (∃ d, Tree.consistency σ t r [] = .ok (true, d)) ∧ Tree.recompute t c r = .ok com := by
  unfold verifyResponse preVerification at h
  cases hv : Tree.fullValidate t with
  | error e => rw [hv] at h; cases h
  | ok u =>
    cases hc : Tree.consistency σ t r [] with
    | error e => rw [hv, hc] at h; cases h
    | ok bd =>
      obtain ⟨b, d⟩ := bd
      cases b with
      | false => rw [hv, hc] at h; cases h
      | true =>
        cases hr : Tree.recompute t c r with
        | error e => rw [hv, hc, hr] at h; cases h
        | ok com' =>
          rw [hv, hc, hr] at h
          have h' : decide (com = com') = true := by injection h
          exact ⟨rfl, ⟨d, rfl⟩, by rw [of_decide_eq_true h']⟩

/-! ### Expressions in which every composition is used once -/

theorem copyOf_places {n n1 : Nat} {t : Tree (Placed E)} (h : (∃ p, t = .leaf p) ∨ ((places t).map Placed.obj).Nodup ∧
    ∀ p ∈ places t, n ≤ p.obj ∧ p.obj < n1) (hn : n ≤ n1) :
    ((places (copyOf n1 t)).map Placed.obj).Nodup ∧ ∀ p ∈ places (copyOf n1 t), n ≤ p.obj ∧ p.obj < n1 + 1 := by
  rcases h with ⟨p, rfl⟩ | ⟨h1, h2⟩
  · simp [copyOf, places, hn]
  · cases t with
    | leaf p => simp [copyOf, places, hn]
    | and s subs => exact ⟨h1, fun p hp => ⟨(h2 p hp).1, by have := (h2 p hp).2; omega⟩⟩
    | or s subs => exact ⟨h1, fun p hp => ⟨(h2 p hp).1, by have := (h2 p hp).2; omega⟩⟩

mutual
theorem make_places (objs : Nat → Leaf E) : ∀ (b : Build) (n : Nat), n ≤ (b.make objs n).2 ∧
    ((∃ p, (b.make objs n).1 = .leaf p) ∨ (((places (b.make objs n).1).map Placed.obj).Nodup ∧
      ∀ p ∈ places (b.make objs n).1, n ≤ p.obj ∧ p.obj < (b.make objs n).2))
  | .obj i, n => ⟨le_refl _, .inl ⟨_, rfl⟩⟩
  | .and subs, n => ⟨(makeL_places objs subs n).1, .inr (makeL_places objs subs n).2⟩
  | .or subs, n => ⟨(makeL_places objs subs n).1, .inr (makeL_places objs subs n).2⟩
theorem makeL_places (objs : Nat → Leaf E) : ∀ (bs : List Build) (n : Nat), n ≤ (Build.makeL objs bs n).2 ∧
    ((placesL (Build.makeL objs bs n).1).map Placed.obj).Nodup ∧
      ∀ p ∈ placesL (Build.makeL objs bs n).1, n ≤ p.obj ∧ p.obj < (Build.makeL objs bs n).2
  | [], n => by simp [Build.makeL, placesL]
  | b :: bs, n => by
    obtain ⟨h1, h2⟩ := make_places objs b n
    obtain ⟨h3, h4, h5⟩ := makeL_places objs bs ((b.make objs n).2 + 1)
    obtain ⟨h6, h7⟩ := copyOf_places h2 h1
    simp only [Build.makeL, placesL, List.map_append]
    refine ⟨by omega, ?_, ?_⟩
    · refine List.nodup_append.mpr ⟨h6, h4, ?_⟩
      intro a ha b hb hab
      obtain ⟨p, hp, rfl⟩ := List.mem_map.mp ha
      obtain ⟨q, hq, rfl⟩ := List.mem_map.mp hb
      have := (h7 p hp).2
      have := (h5 q hq).1
      omega
    · intro p hp
      rcases List.mem_append.mp hp with hp | hp
      · have := h7 p hp
        omega
      · have := h5 p hp
        omega
end

theorem make_unshared (objs : Nat → Leaf E) (b : Build) (n : Nat) : Unshared (b.make objs n).1 := by
  unfold Unshared
  rcases (make_places objs b n).2 with ⟨p, h⟩ | ⟨h, _⟩
  · rw [h]
    simp only [places]
    by_cases he : Extended p <;> simp [he]
  · exact List.Nodup.sublist (List.Sublist.map _ List.filter_sublist) h

end Zksk.Alias
