import Verif.Lemmas.Hvzk
import Verif.Lemmas.Leak
import Verif.Props.Complete
import Mathlib.Logic.Equiv.Basic
import Mathlib.Algebra.Group.Units.Equiv
import Mathlib.Algebra.Group.Pi.Basic
import Mathlib.Data.Fin.Basic
import Mathlib.SetTheory.Cardinal.Finite

/-! # C24, C25: what transcripts tell about the secrets -/

set_option linter.unusedSectionVars false

namespace Zksk.Props

open Spec

variable {E : Type} [AddCommGroup E] [DecidableEq E]

/-! ### C24 -/

theorem table_dvd {σ : Store} {t : Core E} (hs : Solid t) (hc : Composable σ t) (hf : OrFree t)
    {M : Nat} (hM : ∀ x b, (x, b) ∈ terms t → b.grp.order ∣ M) : ∀ e ∈ table σ t, e.2 ∣ M := by
  intro e he
  obtain ⟨q, hq⟩ : ∃ q, OrdersOK σ q t := by
    cases hc with
    | leaf s =>
      refine ⟨fun _ => s.lhs.grp.order, fun x b hx => ?_⟩
      rw [hs.2.2.1 b]
      simp only [terms] at hx
      exact (List.of_mem_zip hx).2
    | and b subs ho _ _ => exact sameOrders_q ho
    | or b subs ho _ => exact sameOrders_q ho
  rw [table_orders (good_of_solid t hs) hq e he]
  have hx := table_keys e he
  have hwf := wf_of_solid hs
  obtain ⟨b, hb⟩ : ∃ b, (e.1, b) ∈ terms t := by
    rw [wf_terms t hwf]
    obtain ⟨i, hi⟩ := List.mem_iff_getElem?.mp hx
    have hl := wf_length t hwf
    have hi' := (List.getElem?_eq_some_iff.mp hi).1
    refine ⟨(coreBases t)[i]'(by omega), List.mem_of_getElem? (i := i) ?_⟩
    rw [List.getElem?_zip_eq_some]
    exact ⟨hi, List.getElem?_eq_getElem _⟩
  rw [hq _ _ hb]
  exact hM _ _ hb

/-- **C24** For a true statement without disjunctions and every challenge, the prover's random numbers can
be translated one-to-one into random numbers of the simulator such that the two transcripts are equal.
Both use a block of `n` uniform numbers below `M` (`M` a multiple of all group orders involved, so that the
reductions modulo the orders are uniform) and leave the rest of the stream alone.  The simulator runs on a
heap `σs` that need not contain any value. The precommitments do not depend on the secrets: they are `None`
and the nested list of `None`s respectively. -/
theorem C24_transcripts_coincide (σ σs : Store) (t : Core E) (d : Dict Int) (X : Key → Int)
    (M : Nat) (hM0 : M ≠ 0) (hM : ∀ x b, (x, b) ∈ terms t → b.grp.order ∣ M)
    (hs : Solid t) (ht : Torsion t) (hd : d.Uniq (heapFor σ d t)) (hX : Satisfied (heapFor σ d t) d X t)
    (hc : Composable (heapFor σ d t) t) (hf : OrFree t)
    (hsee : SeesSame (heapFor σ d t) σs (secrets t)) :
    ∃ n : Nat, ∀ c : Int, ∃ e : Equiv.Perm (Fin n → Fin M),
      ∀ (env : Env E) (x : Fin n → Fin M) (rest : Nat → Nat), ∃ T,
      honestRun env t d c ⟨σ, tape x rest⟩ = .ok ((.none, T), ⟨heapFor σ d t, rest⟩) ∧
      simulatedRun env t c ⟨σs, tape (e x) rest⟩ = .ok ((plainPrecommitment t, T), ⟨σs, rest⟩) := by
  haveI : NeZero M := ⟨hM0⟩
  have hdvd := table_dvd hs hc hf hM
  generalize hD : table (heapFor σ d t) t = D at hdvd
  refine ⟨D.length, fun c => ?_⟩
  let a : Fin D.length → Fin M := fun j => Fin.ofNat M
    ((X ((heapFor σ d t).key (List.get D j).1) * c) % (M : Int)).toNat
  refine ⟨Equiv.addRight a, fun env x rest => ?_⟩
  have hrest : ∀ y : Fin D.length → Fin M, (fun i => tape y rest (i + D.length)) = rest := by
    intro y
    funext i
    simp only [tape]
    rw [dif_neg (by omega)]
    congr 1
    omega
  have hcr := runs_coincide (w := ⟨σ, tape x rest⟩) hs ht hd hX hc hf hsee env c
    (tape (Equiv.addRight a x) rest) ?_
  · obtain ⟨T, h1, h2⟩ := hcr
    rw [hD, hrest] at h1 h2
    exact ⟨T, h1, h2⟩
  · intro j e he
    rw [hD] at he
    obtain ⟨hj, he'⟩ := List.getElem?_eq_some_iff.mp he
    simp only [tape, dif_pos hj, Equiv.coe_addRight, Pi.add_apply, Fin.val_add]
    have hMe : (e.2 : Int) ∣ (M : Int) := Int.natCast_dvd_natCast.mpr (hdvd e (List.mem_of_getElem? he))
    have hMpos : (0 : Int) < M := by omega
    have ha : (((a ⟨j, hj⟩ : Fin M) : Nat) : Int) = (X ((heapFor σ d t).key e.1) * c) % (M : Int) := by
      simp only [a, Fin.val_ofNat, List.get_eq_getElem, he']
      have h1 := Int.emod_nonneg (X ((heapFor σ d t).key e.1) * c) (ne_of_gt hMpos)
      rw [Int.natCast_mod, Int.toNat_of_nonneg h1, Int.emod_emod]
    rw [Int.natCast_mod, Int.emod_emod_of_dvd _ hMe, Int.natCast_add, ha]
    rw [Int.add_emod, Int.emod_emod_of_dvd _ hMe, ← Int.add_emod]

/-- **C24** The distributions coincide: over the blocks of `n` uniform numbers below `M`, every transcript
is produced by the prover exactly as often as by the simulator, which does not know the secrets. -/
theorem C24_same_distribution (env : Env E) (σ σs : Store) (t : Core E) (d : Dict Int) (X : Key → Int)
    (M : Nat) (hM0 : M ≠ 0) (hM : ∀ x b, (x, b) ∈ terms t → b.grp.order ∣ M)
    (hs : Solid t) (ht : Torsion t) (hd : d.Uniq (heapFor σ d t)) (hX : Satisfied (heapFor σ d t) d X t)
    (hc : Composable (heapFor σ d t) t) (hf : OrFree t)
    (hsee : SeesSame (heapFor σ d t) σs (secrets t)) :
    ∃ n : Nat, ∀ (c : Int) (rest : Nat → Nat) (T : Transcript E),
      Nat.card {x : Fin n → Fin M // ∃ v w', honestRun env t d c ⟨σ, tape x rest⟩ = .ok ((v, T), w')} =
      Nat.card {x : Fin n → Fin M // ∃ v w', simulatedRun env t c ⟨σs, tape x rest⟩ = .ok ((v, T), w')} := by
  obtain ⟨n, h⟩ := C24_transcripts_coincide σ σs t d X M hM0 hM hs ht hd hX hc hf hsee
  refine ⟨n, fun c rest T => ?_⟩
  obtain ⟨e, h⟩ := h c
  refine Nat.card_congr (e.subtypeEquiv fun x => ?_)
  obtain ⟨T', h1, h2⟩ := h env x rest
  rw [h1, h2]
  simp only [Except.ok.injEq, Prod.mk.injEq]
  constructor
  · rintro ⟨v, w', ⟨_, hT⟩, _⟩; exact ⟨_, _, ⟨rfl, hT⟩, rfl⟩
  · rintro ⟨v, w', ⟨_, hT⟩, _⟩; exact ⟨_, _, ⟨rfl, hT⟩, rfl⟩

/-- `1 = x0·1 + x1·2` and `6 = x0·3`. -/
def exConj : Core (ZMod 7) := .and false [.leaf Ex.rep1, .leaf Ex.rep2]

/-- The hypotheses are met by `exConj` with the simulator knowing no values. -/
theorem exConj_hyps : (∀ x b, (x, b) ∈ terms exConj → b.grp.order ∣ 7) ∧ Solid exConj ∧ Torsion exConj ∧
    Dict.Uniq (heapFor Ex.σ [(0, 2), (1, 3)] exConj) ([(0, 2), (1, 3)] : Dict Int) ∧
    Satisfied (heapFor Ex.σ [(0, 2), (1, 3)] exConj) [(0, 2), (1, 3)] exVal exConj ∧
    Composable (heapFor Ex.σ [(0, 2), (1, 3)] exConj) exConj ∧ OrFree exConj ∧
    SeesSame (heapFor Ex.σ [(0, 2), (1, 3)] exConj) Ex.σ0 (secrets exConj) := by
  have hheap : heapFor Ex.σ [(0, 2), (1, 3)] exConj = Ex.σ := by
    refine store_ext fun x => ?_
    simp only [Store.key, heapFor, exConj, Ex.σ, List.foldl_cons, List.foldl_nil, Prod.mk.injEq, true_and]
    by_cases h0 : x = 0
    · simp [h0]
    · by_cases h1 : x = 1
      · simp [h1]
      · simp [h0, h1, Ne.symm h0, Ne.symm h1]
  have ht : ∀ x b, (x, b) ∈ terms exConj → b = Ex.P 1 ∨ b = Ex.P 2 ∨ b = Ex.P 3 := by
    intro x b hx
    simp only [exConj, terms, termsL, Ex.rep1, Ex.rep2, List.zip_cons_cons, List.zip_nil_right,
      List.cons_append, List.nil_append, List.append_nil, List.mem_cons, Prod.mk.injEq,
      List.not_mem_nil, or_false] at hx
    rcases hx with ⟨_, rfl⟩ | ⟨_, rfl⟩ | ⟨_, rfl⟩ <;> simp
  have hsolid : Solid exConj := by simp [exConj, Solid, SolidL, Ex.rep1, Ex.rep2, Ex.P, Ex.G]
  refine ⟨?_, ?_, ?_, ?_, ?_, ?_, ?_, ?_⟩
  · intro x b hx
    rcases ht x b hx with rfl | rfl | rfl <;> decide
  · exact hsolid
  · intro x b hx
    rcases ht x b hx with rfl | rfl | rfl <;> decide
  · rw [hheap]; simp only [Dict.Uniq]; decide
  · rw [hheap]
    refine .all _ fun t ht => ?_
    simp only [List.mem_cons, List.not_mem_nil, or_false] at ht
    rcases ht with rfl | rfl
    · exact .rep _ (by decide) (.rep _ _ (by decide) (by decide))
    · exact .rep _ (by decide) (.rep _ _ (by decide) (by decide))
  · rw [hheap]
    have hv : Tree.validateComposition Ex.σ exConj = .ok () := by rfl
    have h : SameOrders Ex.σ exConj ∧ OrsPrivate Ex.σ exConj := by
      rcases validate_and_cases Ex.σ false [.leaf Ex.rep1, .leaf Ex.rep2] (wf_of_solid hsolid)
        with ⟨h, _⟩ | ⟨h, _⟩ | ⟨_, h⟩
      · rw [show Tree.and false _ = exConj from rfl, hv] at h; cases h
      · rw [show Tree.and false _ = exConj from rfl, hv] at h; cases h
      · exact h
    refine .and _ _ h.1 h.2 ?_
    · intro t ht
      simp only [List.mem_cons, List.not_mem_nil, or_false] at ht
      rcases ht with rfl | rfl <;> exact .leaf _
  · refine .all _ _ fun t ht => ?_
    simp only [List.mem_cons, List.not_mem_nil, or_false] at ht
    rcases ht with rfl | rfl <;> exact .rep _
  · rw [hheap]
    refine ⟨⟨rfl, ?_⟩, ?_⟩
    · intro i j a b a' b' h1 h2 h3 h4
      change (Ex.σ.name <$> (secrets exConj))[i]? = _ at h3
      change (Ex.σ.name <$> (secrets exConj))[j]? = _ at h4
      simp only [List.map_eq_map] at h3 h4
      rw [h1] at h3; rw [h2] at h4; cases h3; cases h4
      exact Iff.rfl
    · decide

/-! ### C25 -/

/-- **C25** (violated) The sub-challenges of an honest or-proof, for clauses of any kind: the one of the
clause really proved is at most 0, all others are at least 0. -/
theorem C25_challenge_signs (env : Env E) (s : Bool) (subs : List (Stmt E)) (d : Dict Int) (msg : String)
    (nizk : NIZK E) (t' : Stmt E) (w w' : World)
    (h : prove (LeafProver E) env (.or s subs) d msg w = .ok ((nizk, t'), w')) :
    ∃ (i : Nat) (t : Stmt E) (cs : List Int) (rs : List (Val E)) (c : Int),
      subs[i]? = some t ∧ t.simulated = false ∧
      (∃ (w1 w2 : World) (p : StmtProver E) (t1 : Stmt E), PTree.getProver t d w1 = .ok ((some p, t1), w2)) ∧
      nizk.responses = .tuple [.list (cs.map Val.int), .list rs] ∧ cs.length = subs.length ∧
      cs[i]? = some c ∧ -(2 : Int) ^ 128 < c ∧ c ≤ 0 ∧
      (∀ (j : Nat) (c' : Int), cs[j]? = some c' → j ≠ i → 0 ≤ c' ∧ c' < 2 ^ 128) := by
  obtain ⟨i, t, cs, rs, w1, w2, p, t1, h1, h2, _, h3, h4, h5, _, h6, h7⟩ :=
    prove_or_shape (J := fun _ => True) leaf_drawn (fun _ _ _ _ _ _ _ => trivial) trivial h
  have hi := (List.getElem?_eq_some_iff.mp h1).1
  have hc : cs[i]? = some (cs[i]'(by omega)) := List.getElem?_eq_getElem _
  exact ⟨i, t, cs, rs, _, h1, h2, ⟨w1, w2, p, t1, h3⟩, h4, h5, hc, (h6 _ hc).1, (h6 _ hc).2, h7⟩

/-- **C25** (violated) For statements over representations: a clause whose sub-challenge is negative is one
that is provable from the prover's secrets, so that an observer who sees a negative sub-challenge learns a
clause whose secrets the prover knows. -/
theorem C25_negative_reveals (env : Env E) (s : Bool) (subs : List (Core E)) (d : Dict Int) (msg : String)
    (nizk : NIZK E) (t' : Core E) (w w' : World) (hs : Solid (.or s subs))
    (h : prove (DLRepProver E) env (.or s subs) d msg w = .ok ((nizk, t'), w'))
    (cs : List Int) (rs : List (Val E)) (hr : nizk.responses = .tuple [.list (cs.map Val.int), .list rs])
    (j : Nat) (c : Int) (hj : cs[j]? = some c) (hneg : c < 0) :
    ∃ t, subs[j]? = some t ∧ unmarked t ∧ ¬ Declines (heapFor w.store d (.or s subs)) d t := by
  have hu : updateSecretValues (heapFor w.store d (.or s subs)) d = heapFor w.store d (.or s subs) := by
    rw [heapFor_eq _ _ (by simp), updateSecretValues_idem]
  have hwf := wf_of_solid hs
  obtain ⟨i, t, cs', rs', w1, w2, p, t1, h1, h2, h0, h3, h4, h5, _, h6, h7⟩ :=
    prove_or_shape (J := fun τ => τ = heapFor w.store d (.or s subs)) dlrep_drawn (fun t ht w r w' hw hr => by
        obtain ⟨r1, r2⟩ := r
        exact (getProver_frame hu (wellFormedL_iff.mp hwf.2 t ht) hw hr).1)
      (by rw [heapFor_eq _ _ (by simp)]) h
  have hcs : cs' = cs := by
    rw [hr] at h4
    simp only [Val.tuple.injEq, List.cons.injEq, Val.list.injEq, and_true] at h4
    exact (List.map_injective_iff.mpr (fun _ _ h => Val.int.inj h) h4.1).symm
  subst hcs
  have hji : j = i := by
    by_contra hne
    have := (h7 j c hj hne).1
    omega
  subst hji
  refine ⟨t, h1, simulated_iff.mp h2, fun hd => ?_⟩
  have hm := List.mem_of_getElem? h1
  have := (getProver_none_iff hu t (solidL_iff.mp hs.2 t hm) (some p) t1 w1 w2 h0 h3).mpr hd
  cases this

/-- **C25** (violated) Two provers of the same disjunction, one of whom can only prove clause `i` and the
other only clause `j ≠ i`, never produce the same responses, except if the two sub-challenges are both 0. -/
theorem C25_clauses_distinguished (env : Env E) (s : Bool) (subs : List (Core E)) (d₁ d₂ : Dict Int)
    (msg : String) (nizk₁ nizk₂ : NIZK E) (t₁ t₂ : Core E) (w₁ w₂ w₁' w₂' : World) (hs : Solid (.or s subs))
    (h₁ : prove (DLRepProver E) env (.or s subs) d₁ msg w₁ = .ok ((nizk₁, t₁), w₁'))
    (h₂ : prove (DLRepProver E) env (.or s subs) d₂ msg w₂ = .ok ((nizk₂, t₂), w₂'))
    (i j : Nat) (hij : i ≠ j)
    (ho₁ : ∀ (k : Nat) t, subs[k]? = some t → k ≠ i → Declines (heapFor w₁.store d₁ (.or s subs)) d₁ t)
    (ho₂ : ∀ (k : Nat) t, subs[k]? = some t → k ≠ j → Declines (heapFor w₂.store d₂ (.or s subs)) d₂ t)
    (hr : nizk₁.responses = nizk₂.responses) :
    ∃ (cs : List Int) (rs : List (Val E)), nizk₁.responses = .tuple [.list (cs.map Val.int), .list rs] ∧
      cs[i]? = some 0 ∧ cs[j]? = some 0 := by
  have key : ∀ (d : Dict Int) (nizk : NIZK E) (t : Core E) (w w' : World) (i : Nat),
      prove (DLRepProver E) env (.or s subs) d msg w = .ok ((nizk, t), w') →
      (∀ (k : Nat) t, subs[k]? = some t → k ≠ i → Declines (heapFor w.store d (.or s subs)) d t) →
      i < subs.length ∧ ∃ (cs : List Int) (rs : List (Val E)), nizk.responses = .tuple [.list (cs.map Val.int), .list rs] ∧
        cs.length = subs.length ∧
        (∀ c, cs[i]? = some c → c ≤ 0) ∧ (∀ (k : Nat) c, cs[k]? = some c → k ≠ i → 0 ≤ c) := by
    intro d nizk t w w' i h ho
    have hu : updateSecretValues (heapFor w.store d (.or s subs)) d = heapFor w.store d (.or s subs) := by
      rw [heapFor_eq _ _ (by simp), updateSecretValues_idem]
    have hwf := wf_of_solid hs
    obtain ⟨i', u, cs, rs, w1, w2, p, t1, h1, h2, h0, h3, h4, h5, _, h6, h7⟩ :=
      prove_or_shape (J := fun τ => τ = heapFor w.store d (.or s subs)) dlrep_drawn (fun t ht w r w' hw hr => by
          obtain ⟨r1, r2⟩ := r
          exact (getProver_frame hu (wellFormedL_iff.mp hwf.2 t ht) hw hr).1)
        (by rw [heapFor_eq _ _ (by simp)]) h
    have hii : i' = i := by
      by_contra hne
      have hm := List.mem_of_getElem? h1
      have := (getProver_none_iff hu u (solidL_iff.mp hs.2 u hm) (some p) t1 w1 w2 h0 h3).mpr (ho i' u h1 hne)
      cases this
    subst hii
    exact ⟨(List.getElem?_eq_some_iff.mp h1).1, cs, rs, h4, h5, fun c hc => (h6 c hc).2,
      fun k c hc hk => (h7 k c hc hk).1⟩
  obtain ⟨hi, cs, rs, a1, a2, a3, a4⟩ := key d₁ nizk₁ t₁ w₁ w₁' i h₁ ho₁
  obtain ⟨hj, cs', rs', b1, b2, b3, b4⟩ := key d₂ nizk₂ t₂ w₂ w₂' j h₂ ho₂
  have hcs : cs = cs' := by
    rw [a1, b1] at hr
    simp only [Val.tuple.injEq, List.cons.injEq, Val.list.injEq, and_true] at hr
    exact List.map_injective_iff.mpr (fun _ _ h => Val.int.inj h) hr.1
  subst hcs
  have hci : cs[i]? = some (cs[i]'(by omega)) := List.getElem?_eq_getElem _
  have hcj : cs[j]? = some (cs[j]'(by omega)) := List.getElem?_eq_getElem _
  have e1 : cs[i]'(by omega) = 0 := le_antisymm (a3 _ hci) (b4 i _ hci hij)
  have e2 : cs[j]'(by omega) = 0 := le_antisymm (b3 _ hcj) (a4 j _ hcj (Ne.symm hij))
  exact ⟨cs, rs, a1, by rw [hci, e1], by rw [hcj, e2]⟩

/-- An honest proof of `6 = x0·3 or 5 = x2·3` by somebody who knows only `x2`: the second sub-challenge is
negative. -/
example : ∃ nizk t' w' c, ∃ cs : List Int, ∃ rs, prove (DLRepProver (ZMod 7)) (Ex.env 5) (.or false [.leaf Ex.rep2, .leaf Ex.rep3])
      [(2, 4)] "m" ⟨Ex.σ0, fun i => i + 40⟩ = .ok ((nizk, t'), w') ∧
    nizk.responses = .tuple [.list (cs.map Val.int), .list rs] ∧ cs[1]? = some c ∧ c < 0 :=
  ⟨_, _, _, _, [_, _], _, rfl, rfl, rfl, by decide⟩

/-- Two provers who know different clauses, and the only way for their responses to agree. -/
example : ∃ nizk₁ nizk₂ t₁ t₂ w₁ w₂,
    prove (DLRepProver (ZMod 7)) (Ex.env 0) (.or false [.leaf Ex.rep2, .leaf Ex.rep3])
      [(0, 2)] "m" ⟨Ex.σ0, fun _ => 0⟩ = .ok ((nizk₁, t₁), w₁) ∧
    prove (DLRepProver (ZMod 7)) (Ex.env 0) (.or false [.leaf Ex.rep2, .leaf Ex.rep3])
      [(2, 4)] "m" ⟨Ex.σ0, fun _ => 0⟩ = .ok ((nizk₂, t₂), w₂) ∧
    nizk₁.responses = nizk₂.responses ∧
    Declines (heapFor Ex.σ0 [(0, 2)] (.or false [.leaf Ex.rep2, .leaf Ex.rep3])) [(0, 2)] (.leaf Ex.rep3) ∧
    Declines (heapFor Ex.σ0 [(2, 4)] (.or false [.leaf Ex.rep2, .leaf Ex.rep3])) [(2, 4)] (.leaf Ex.rep2) :=
  ⟨_, _, _, _, _, _, rfl, rfl, rfl, .rep _ 2 (by decide) (by rfl), .rep _ 0 (by decide) (by rfl)⟩

example : ∃ n : Nat, ∀ c, ∃ e : Equiv.Perm (Fin n → Fin 7),
    ∀ (env : Env (ZMod 7)) (x : Fin n → Fin 7) (rest : Nat → Nat), ∃ T,
    honestRun env exConj [(0, 2), (1, 3)] c ⟨Ex.σ, tape x rest⟩ =
      .ok ((.none, T), ⟨heapFor Ex.σ [(0, 2), (1, 3)] exConj, rest⟩) ∧
    simulatedRun env exConj c ⟨Ex.σ0, tape (e x) rest⟩ =
      .ok ((plainPrecommitment exConj, T), ⟨Ex.σ0, rest⟩) :=
  have ⟨h1, h2, h3, h4, h5, h6, h7, h8⟩ := exConj_hyps
  C24_transcripts_coincide Ex.σ Ex.σ0 exConj [(0, 2), (1, 3)] exVal 7 (by decide) h1 h2 h3 h4 h5 h6 h7 h8

end Zksk.Props
