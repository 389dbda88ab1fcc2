import Verif.SpecForm
import Verif.Lemmas.Accept

/-! Every step of `verify()` on proofs of the right form. -/

set_option linter.unusedSectionVars false

namespace Zksk

open Spec

variable {E : Type} [AddCommGroup E] [DecidableEq E]

theorem index_seq {l : List (Val E)} {r : Val E} (hr : r = .list l ∨ r = .tuple l) {i : Nat} (hi : i < l.length) :
    ∃ v, r.index i = .ok v := by
  rcases hr with rfl | rfl <;> exact ⟨l[i], by simp [Val.index, hi]⟩

theorem consistencyGo_total (σ : Store) (r : Val E) : ∀ (ss : List Sec) (i : Nat) (d : Dict (Val E)),
    (∀ j, j < ss.length → ∃ v, r.index (i + j) = .ok v) → ∃ b d', DLRep.consistencyGo σ r ss i d = .ok (b, d')
  | [], _, d, _ => ⟨true, d, rfl⟩
  | s :: ss, i, d, h => by
    obtain ⟨v, hv⟩ := h 0 (by simp)
    have hrest : ∀ j, j < ss.length → ∃ v, r.index (i + 1 + j) = .ok v := fun j hj => by
      obtain ⟨u, hu⟩ := h (j + 1) (by simpa using hj)
      exact ⟨u, by rw [show i + 1 + j = i + (j + 1) by omega]; exact hu⟩
    simp only [Nat.add_zero] at hv
    simp only [DLRep.consistencyGo]
    cases hg : Dict.get? σ d s with
    | none =>
      simp only [hv, bind_ok]
      exact consistencyGo_total σ r ss (i + 1) _ hrest
    | some u =>
      simp only [hv, bind_ok]
      split
      · exact ⟨_, _, rfl⟩
      · exact consistencyGo_total σ r ss (i + 1) _ hrest

theorem consistencyAnd_total (σ : Store) (r : Val E) : ∀ (ts : List (Core E)) (i : Nat) (d : Dict (Val E)),
    (∀ j t, ts[j]? = some t → ∃ rj, r.index (i + j) = .ok rj ∧
      ∀ d, ∃ b d', Tree.consistency σ t rj d = .ok (b, d')) →
    ∃ b d', Tree.consistencyAnd σ ts i r d = .ok (b, d')
  | [], _, d, _ => ⟨true, d, by simp only [Tree.consistencyAnd]⟩
  | t :: ts, i, d, h => by
    obtain ⟨r0, h0, hc⟩ := h 0 t (by simp)
    obtain ⟨b, d1, hb⟩ := hc d
    simp only [Nat.add_zero] at h0
    simp only [Tree.consistencyAnd, h0, hb, bind_ok]
    cases b with
    | false => exact ⟨_, _, rfl⟩
    | true =>
      exact consistencyAnd_total σ r ts (i + 1) d1 fun j u hu => by
        rw [show i + 1 + j = i + (j + 1) by omega]
        exact h (j + 1) u (by simpa using hu)

theorem consistencyOr_total (σ : Store) (r rs : Val E) (hrs : r.index 1 = .ok rs) : ∀ (ts : List (Core E)) (i : Nat),
    (∀ j t, ts[j]? = some t → ∃ rj, rs.index (i + j) = .ok rj ∧
      ∀ d, ∃ b d', Tree.consistency σ t rj d = .ok (b, d')) →
    ∃ b, Tree.consistencyOr σ ts i r = .ok b
  | [], _, _ => ⟨true, by simp only [Tree.consistencyOr]⟩
  | t :: ts, i, h => by
    obtain ⟨r0, h0, hc⟩ := h 0 t (by simp)
    obtain ⟨b, d1, hb⟩ := hc []
    simp only [Nat.add_zero] at h0
    simp only [Tree.consistencyOr, hrs, h0, hb, bind_ok]
    cases b with
    | false => exact ⟨_, rfl⟩
    | true =>
      exact consistencyOr_total σ r rs hrs ts (i + 1) fun j u hu => by
        rw [show i + 1 + j = i + (j + 1) by omega]
        exact h (j + 1) u (by simpa using hu)

theorem lt_of_get {α : Type} {l : List α} {i : Nat} {a : α} (h : l[i]? = some a) : i < l.length :=
  (List.getElem?_eq_some_iff.mp h).1

/-- The comparison of responses comes to a verdict. -/
theorem formed_consistency (σ : Store) {k : Core E} {r : Val E} (h : Formed k r) :
    ∀ d, ∃ b d', Tree.consistency σ k r d = .ok (b, d') := by
  induction h with
  | rep s r ws hr hlen =>
    intro d
    simp only [Tree.consistency, StmtOps.consistency]
    exact consistencyGo_total σ r s.secretVars 0 d fun j hj => by
      rw [Nat.zero_add]
      exact index_seq hr (by simpa [hlen] using hj)
  | all b subs r ri hri _ ih =>
    intro d
    simp only [Tree.consistency]
    exact consistencyAnd_total σ r subs 0 d fun j t ht =>
      ⟨ri j, by rw [Nat.zero_add]; exact hri j (lt_of_get ht), ih j t ht⟩
  | any b subs r rs cs ri hcs hrs hlen hri _ ih =>
    intro d
    obtain ⟨b', hb⟩ := consistencyOr_total σ r rs hrs subs 0 fun j t ht =>
      ⟨ri j, by rw [Nat.zero_add]; exact hri j (lt_of_get ht), ih j t ht⟩
    exact ⟨b', d, by simp only [Tree.consistency, hb, bind_ok]⟩

/-- The commitment can be recomputed, or the sub-challenges of a disjunction do not add up. -/
def Recomputed (x : Except Err (Val E)) : Prop :=
  (∃ com, x = .ok com ∧ ∀ s, com ≠ .str s) ∨ x = .error .inconsistentChallenge

theorem recomputeAnd_total (c : Int) (r : Val E) : ∀ (ts : List (Core E)) (i : Nat),
    (∀ j t, ts[j]? = some t → ∃ rj, r.index (i + j) = .ok rj ∧ Recomputed (Tree.recompute t c rj)) →
    (∃ coms, Tree.recomputeAnd ts i c r = .ok coms) ∨ Tree.recomputeAnd ts i c r = .error .inconsistentChallenge
  | [], _, _ => .inl ⟨[], by simp only [Tree.recomputeAnd]⟩
  | t :: ts, i, h => by
    obtain ⟨r0, h0, hc⟩ := h 0 t (by simp)
    simp only [Nat.add_zero] at h0
    simp only [Tree.recomputeAnd, h0, bind_ok]
    rcases hc with ⟨com, hcom, _⟩ | hcom
    · rw [hcom]
      simp only [bind_ok]
      rcases recomputeAnd_total c r ts (i + 1) fun j u hu => by
        rw [show i + 1 + j = i + (j + 1) by omega]
        exact h (j + 1) u (by simpa using hu) with ⟨coms, h'⟩ | h'
      · exact .inl ⟨com :: coms, by rw [h']; rfl⟩
      · exact .inr (by rw [h']; rfl)
    · exact .inr (by rw [hcom]; rfl)

theorem recomputeOr_total (cs : List Int) (r : Val E) : ∀ (ts : List (Core E)) (i : Nat),
    i + ts.length ≤ cs.length →
    (∀ j t, ts[j]? = some t → ∃ rj, r.index (i + j) = .ok rj ∧ ∀ c, Recomputed (Tree.recompute t c rj)) →
    (∃ coms, Tree.recomputeOr ts i cs r = .ok coms) ∨ Tree.recomputeOr ts i cs r = .error .inconsistentChallenge
  | [], _, _, _ => .inl ⟨[], by simp only [Tree.recomputeOr]⟩
  | t :: ts, i, hlen, h => by
    obtain ⟨r0, h0, hc⟩ := h 0 t (by simp)
    simp only [Nat.add_zero] at h0
    simp only [List.length_cons] at hlen
    have hci : cs[i]? = some (cs[i]'(by omega)) := List.getElem?_eq_getElem _
    simp only [Tree.recomputeOr, hci, h0, bind_ok]
    rcases hc (cs[i]'(by omega)) with ⟨com, hcom, _⟩ | hcom
    · rw [hcom]
      simp only [bind_ok]
      rcases recomputeOr_total cs r ts (i + 1) (by omega) fun j u hu => by
        rw [show i + 1 + j = i + (j + 1) by omega]
        exact h (j + 1) u (by simpa using hu) with ⟨coms, h'⟩ | h'
      · exact .inl ⟨com :: coms, by rw [h']; rfl⟩
      · exact .inr (by rw [h']; rfl)
    · exact .inr (by rw [hcom]; rfl)

theorem solidL_get {ts : List (Core E)} (h : SolidL ts) : ∀ {i : Nat} {t : Core E}, ts[i]? = some t → Solid t := by
  induction ts with
  | nil => intro i t ht; simp at ht
  | cons u ts ih =>
    intro i t ht
    cases i with
    | zero => simp at ht; subst ht; exact h.1
    | succ i => exact ih h.2 (by simpa using ht)

theorem formed_recompute {k : Core E} {r : Val E} (h : Formed k r) :
    Solid k → ∀ c, Recomputed (Tree.recompute k c r) := by
  induction h with
  | rep s r ws hr hlen =>
    intro hs c
    simp only [Solid] at hs
    refine .inl ⟨_, recompute_leaf.mpr (.rep s c r (ws.map .int) ws ?_ ?_ ?_ ?_), by simp⟩
    · rcases hr with rfl | rfl <;> rfl
    · intro _; simp [hlen, hs.1]
    · rw [List.take_of_length_le (by simp [hlen, hs.1])]
    · intro b hb; exact hs.2.2.1 b (List.mem_of_mem_take hb)
  | all b subs r ri hri _ ih =>
    intro hs c
    simp only [Solid] at hs
    simp only [Tree.recompute]
    rcases recomputeAnd_total c r subs 0 fun j t ht =>
      ⟨ri j, by rw [Nat.zero_add]; exact hri j (lt_of_get ht), ih j t ht (solidL_get hs.2 ht) c⟩ with ⟨coms, h⟩ | h
    · exact .inl ⟨.list coms, by rw [h]; rfl, by simp⟩
    · exact .inr (by rw [h]; rfl)
  | any b subs r rs cs ri hcs hrs hlen hri _ ih =>
    intro hs c
    simp only [Solid] at hs
    simp only [Tree.recompute, hcs, hrs, bind_ok, asIntList_ok.mpr (rfl : Val.list (cs.map Val.int) = Val.list (cs.map Val.int))]
    split
    · exact .inr rfl
    · rcases recomputeOr_total cs rs subs 0 (by omega) fun j t ht =>
        ⟨ri j, by rw [Nat.zero_add]; exact hri j (lt_of_get ht), ih j t ht (solidL_get hs.2 ht)⟩ with ⟨coms, h⟩ | h
      · exact .inl ⟨.list coms, by rw [h]; rfl, by simp⟩
      · exact .inr (by rw [h]; rfl)

/-! ### The precommitment -/

/-- `validate()` decides. -/
def ValidateDecides (x : Except Err Unit) : Prop := x = .ok () ∨ x = .error .validation

theorem processL_readable (σ : Store) (v : Val E) (vi : Nat → Val E) : ∀ (subs : List (Stmt E)) (n : Nat)
    (ks : List (Core E)), ks.length = subs.length → (∀ i, i < subs.length → v.index (n + i) = .ok (vi (n + i))) →
    (∀ (i : Nat) (t : Stmt E) (k : Core E), subs[i]? = some t → ks[i]? = some k →
      ∃ t1 S, Tree.process σ (Tree.freshVerifier t) (vi (n + i)) = .ok t1 ∧ ValidateDecides (Tree.fullValidate t1) ∧
        View t1 S k) →
    ∃ ts1 Ss, Tree.processL σ (Tree.freshVerifierL subs) n v = .ok ts1 ∧ ValidateDecides (Tree.fullValidateL ts1) ∧
      ViewL ts1 Ss ks
  | [], n, ks, hk, _, _ => by
    have : ks = [] := List.length_eq_zero_iff.mp hk
    subst ks
    exact ⟨[], [], rfl, .inl rfl, by simp [ViewL, Tree.skelL, Tree.coreL, Tree.ReadyL]⟩
  | t :: ts, n, ks, hk, hvi, h => by
    cases ks with
    | nil => simp at hk
    | cons k ks =>
      obtain ⟨t1, S, h1, h2, h3⟩ := h 0 t k (by simp) (by simp)
      obtain ⟨ts1, Ss, g1, g2, g3⟩ := processL_readable σ v vi ts (n + 1) ks (by simpa using hk)
        (fun i hi => by
          have := hvi (i + 1) (by simp; omega)
          rw [show n + 1 + i = n + (i + 1) by omega]; exact this)
        (fun i t' k' ht hk => by
          have := h (i + 1) t' k' (by simpa using ht) (by simpa using hk)
          rw [show n + 1 + i = n + (i + 1) by omega]; exact this)
      refine ⟨t1 :: ts1, S :: Ss, ?_, ?_, viewL_cons h3 g3⟩
      · have hv0 := hvi 0 (by simp)
        simp only [Nat.add_zero] at hv0 h1
        simp only [Tree.freshVerifierL, Tree.processL, hv0, bind_ok, h1, g1]
      · simp only [Tree.fullValidateL]
        rcases h2 with h2 | h2
        · rw [h2]; exact g2
        · exact .inr (by rw [h2]; rfl)

theorem process_readable (σ : Store) {t : Stmt E} {v : Val E} {k : Core E} (h : Legible σ t v k) :
    ∃ t1 S, Tree.process σ (Tree.freshVerifier t) v = .ok t1 ∧ ValidateDecides (Tree.fullValidate t1) ∧ View t1 S k := by
  induction h with
  | bare k =>
    obtain ⟨h1, h2, h3⟩ := view_embed k
    exact ⟨embed k, _, by rw [h2]; exact process_embed σ k, .inl h3, h1⟩
  | rep s v =>
    exact ⟨.leaf (.dlrep s), _, by simp [Tree.freshVerifier, StmtOps.freshVerifier, Tree.process,
      StmtOps.process, Except.map, bind_ok], .inl (by simp [Tree.fullValidate, StmtOps.fullValidate]),
      (view_embed (.leaf s)).1⟩
  | ext s v t hc hv =>
    refine ⟨_, _, ?_, ?_, view_ext s v t⟩
    · simp [Tree.freshVerifier, StmtOps.freshVerifier, Tree.process,
        StmtOps.process, Ext.process, Ext.fullConstruct, hc, Except.map, bind_ok]
    · simpa only [Tree.fullValidate, StmtOps.fullValidate, ValidateDecides] using hv
  | all b subs v vi ks hv hk hvi h ih =>
    obtain ⟨ts1, Ss, h1, h2, g1, g2, g3⟩ := processL_readable σ v vi subs 0 ks hk
      (fun i hi => by simpa using hvi i hi) (fun i t k ht hk => by simpa using ih i t k ht hk)
    refine ⟨.and b ts1, .all Ss, ?_, ?_, ?_⟩
    · have : v.isNone = false := by
        rw [← Bool.not_eq_true]; exact fun e => hv (isNone_iff.mp e)
      simp [Tree.freshVerifier, Tree.process, this, h1, bind_ok]
    · simpa only [Tree.fullValidate] using h2
    · exact ⟨by simp [Tree.skel, g1], by simp [Tree.core, g2], by simpa [Tree.Ready] using g3⟩
  | any b subs v vi ks hv hk hvi h ih =>
    obtain ⟨ts1, Ss, h1, h2, g1, g2, g3⟩ := processL_readable σ v vi subs 0 ks hk
      (fun i hi => by simpa using hvi i hi) (fun i t k ht hk => by simpa using ih i t k ht hk)
    refine ⟨.or b ts1, .any Ss, ?_, ?_, ?_⟩
    · have : v.isNone = false := by
        rw [← Bool.not_eq_true]; exact fun e => hv (isNone_iff.mp e)
      simp [Tree.freshVerifier, Tree.process, this, h1, bind_ok]
    · simpa only [Tree.fullValidate] using h2
    · exact ⟨by simp [Tree.skel, g1], by simp [Tree.core, g2], by simpa [Tree.Ready] using g3⟩

theorem chunk_ok (env : Env E) {v : Val E} (h : ∀ s, v ≠ .str s) : ∃ b, env.chunk v = .ok b := by
  cases v with
  | str s => exact absurd rfl (h s)
  | _ => exact ⟨_, rfl⟩

/-- The whole of `verify()` after the precommitment has been digested. -/
theorem verify_decides (env : Env E) (σ : Store) {t t1 : Stmt E} {S : Skel E} {k : Core E} {nizk : NIZK E}
    (msg : String) (h1 : digestPrecommitment σ (Tree.freshVerifier t) nizk.precommitment = .ok t1)
    (hval : ValidateDecides (Tree.fullValidate t1)) (hview : View t1 S k) (hs : Solid k) (hf : Formed k nizk.responses)
    (hp : ∀ s, nizk.precommitment ≠ .str s) : Decides (verify env σ t nizk msg) := by
  unfold verify
  rw [h1]
  simp only [bind_ok]
  obtain ⟨id, _, hid, _⟩ := Tree.proofId_isOk (σ := σ) hview.1
  unfold checkStatement
  rw [hid]
  simp only [bind_ok]
  split
  · exact .inr ⟨_, rfl, .inl rfl⟩
  · simp only [bind_ok]
    unfold preVerification
    rcases hval with hval | hval
    · rw [hval]
      obtain ⟨b, d, hb⟩ := formed_consistency σ hf []
      rw [hview.consistency, hb]
      simp only [bind_ok]
      cases b with
      | false => exact .inr ⟨_, rfl, .inr (.inl rfl)⟩
      | true =>
        simp only [if_true, bind_ok]
        rw [hview.recompute]
        rcases formed_recompute hf hs nizk.challenge with ⟨com, hcom, hns⟩ | hcom
        · rw [hcom]
          obtain ⟨a, ha⟩ := chunk_ok env hp
          obtain ⟨b, hb⟩ := chunk_ok env hns
          simp only [bind_ok, Env.fiatShamir, Env.challengeInput, ha, hb]
          exact .inl ⟨_, rfl⟩
        · rw [hcom]; exact .inr ⟨_, rfl, .inr (.inr rfl)⟩
    · rw [hval]; exact .inr ⟨_, rfl, .inr (.inl rfl)⟩

end Zksk
