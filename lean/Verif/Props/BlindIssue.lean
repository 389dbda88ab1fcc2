import Verif.Lemmas.BlindIssue
import Verif.Lemmas.SameDist

/-! # C68: blinded commitments reveal nothing about the messages but their number -/

set_option linter.unusedSectionVars false

namespace Zksk.Props

open Spec

variable {E : Type} [AddCommGroup E] [DecidableEq E]

/-- What the issuer receives from `commit(messages, zkp=True)`. -/
def requestOf (env : Env E) (c : Creator E) (ms : List Int) (next : Nat) : PM (UserCommitment E) := do
  let (m, _) ← c.commit env ms true next
  pure m

/-- **C68** The request for a blind signature -- commitment and proof -- on one list of messages is distributed as that
on any other list of the same length. -/
theorem C68_requests_coincide (P : Pairing E) (env : Env E) (pk : PublicKey E) (hk : GoodKey P pk)
    (hord : P.order ≠ 0) (htor : ∀ g ∈ pk.generators, (P.order : Int) • g.val = 0) (g1 : Pt E)
    (hg1 : pk.generators[1]? = some g1) (hgen : ∀ g ∈ pk.generators, ∃ a : Int, g.val = a • g1.val)
    (ms₁ ms₂ : List Int) (hlen : ms₁.length = ms₂.length) (hfit : ms₁.length + 2 ≤ pk.generators.length)
    (c₁ c₂ : Creator E) (hc₁ : c₁.pk = pk) (hc₂ : c₂.pk = pk) (next : Nat) (σ₁ σ₂ : Store)
    (hn₁ : ((freshSecs next (ms₁.length + 1)).map σ₁.name).Nodup) (hn₂ : ((freshSecs next (ms₁.length + 1)).map σ₂.name).Nodup)
    (hv₁ : ∀ x ∈ freshSecs next (ms₁.length + 1), σ₁.value x = none)
    (hv₂ : ∀ x ∈ freshSecs next (ms₁.length + 1), σ₂.value x = none) :
    SameOutputs (1 + (ms₁.length + 1)) P.order (requestOf env c₁ ms₁ next) σ₁ (requestOf env c₂ ms₂ next) σ₂ := by
  haveI : NeZero P.order := ⟨hord⟩
  obtain ⟨g0, g1', gs, hg⟩ := gens_split hk
  have : g1' = g1 := by rw [hg] at hg1; simpa using hg1
  subst this
  have hgr := hk.g1
  have hk₁ : GoodKey P c₁.pk := hc₁ ▸ hk
  have hk₂ : GoodKey P c₂.pk := hc₂ ▸ hk
  rw [hg] at hgr htor hgen
  have hfit' : ms₁.length ≤ gs.length := by rw [hg] at hfit; simpa using hfit
  obtain ⟨z₁, hz₁⟩ := lin_multiples (gs := gs) (fun g h => hgen g (by simp [h])) ms₁
  obtain ⟨z₂, hz₂⟩ := lin_multiples (gs := gs) (fun g h => hgen g (by simp [h])) ms₂
  -- the blinding of the second commitment
  let f : Equiv.Perm (Fin 1 → Fin P.order) := Equiv.addRight fun _ => red P.order (z₁ - z₂)
  have hcom : ∀ a : Fin 1 → Fin P.order, ((a 0 : Nat) : Int) • g1'.val + lin ms₁ gs =
      ((f a 0 : Nat) : Int) • g1'.val + lin ms₂ gs := by
    intro a
    rw [hz₁, hz₂, ← add_smul, ← add_smul]
    have hd : (P.order : Int) ∣ (((f a 0 : Nat) : Int) + z₂) - (((a 0 : Nat) : Int) + z₁) := by
      have e1 : ((f a 0 : Nat) : Int) = (((a 0 : Nat) : Int) + (z₁ - z₂) % (P.order : Int)) % (P.order : Int) := by
        simp only [f, Equiv.coe_addRight, Pi.add_apply, Fin.val_add]
        rw [Int.natCast_mod, Int.natCast_add, red_val]
      rw [e1]
      have k1 := Int.emod_add_mul_ediv (((a 0 : Nat) : Int) + (z₁ - z₂) % (P.order : Int)) P.order
      have k2 := Int.emod_add_mul_ediv (z₁ - z₂) P.order
      refine ⟨-((z₁ - z₂) / P.order) - (((a 0 : Nat) : Int) + (z₁ - z₂) % (P.order : Int)) / P.order, ?_⟩
      rw [mul_sub, mul_neg]
      linarith
    obtain ⟨k, hk⟩ := hd
    have : ((f a 0 : Nat) : Int) + z₂ = (((a 0 : Nat) : Int) + z₁) + k * P.order := by linarith
    rw [this, add_smul _ (k * _), mul_smul, htor g1' (by simp), smul_zero, add_zero]
  have hvl : (freshSecs next (ms₁.length + 1)).length = ms₁.length + 1 := by simp [freshSecs]
  have htake : ∀ (ms : List Int) (x : Int), ms.length = ms₁.length → lin (x :: ms) (g1' :: gs.take ms₁.length) = x • g1'.val + lin ms gs := by
    intro ms x h
    rw [← lin_take ms gs ms₁.length (by omega)]
    simp [lin]
  -- the proofs, for each blinding
  have hall : ∀ a : Fin 1 → Fin P.order, ∃ e : Equiv.Perm (Fin (ms₁.length + 1) → Fin P.order),
      ∀ (b : Fin (ms₁.length + 1) → Fin P.order) (rest : Nat → Nat), ∃ v w w',
        requestOf env c₁ ms₁ next ⟨σ₁, tape (Fin.append a b) rest⟩ = .ok (v, w) ∧ w.rng = rest ∧
        requestOf env c₂ ms₂ next ⟨σ₂, tape (Fin.append (f a) (e b)) rest⟩ = .ok (v, w') ∧ w'.rng = rest := by
    intro a
    obtain ⟨e, he⟩ := rep_proofs_coincide env
      ⟨⟨P.G1, ((a 0 : Nat) : Int) • g1'.val + lin ms₁ gs⟩, g1' :: gs.take ms₁.length, freshSecs next (ms₁.length + 1), [], false⟩
      "" P.order rfl hord (by simp [freshSecs, hfit']) (by simp) (by
        intro b hb
        have : b ∈ g0 :: g1' :: gs := by
          rcases List.mem_cons.mp hb with rfl | hb
          · simp
          · simp [List.mem_of_mem_take hb]
        exact ⟨hgr b this, htor b this⟩) σ₁ σ₂ hn₁ hn₂ (((a 0 : Nat) : Int) :: ms₁) (((f a 0 : Nat) : Int) :: ms₂)
      (by simp [hvl]) (by simp [hvl, ← hlen]) (by rw [htake _ _ rfl]) (by rw [htake _ _ hlen.symm]; exact hcom a) _ hvl
    refine ⟨e, fun b rest => ?_⟩
    obtain ⟨nizk, t₁, t₂, p₁, p₂⟩ := he b rest
    have hone : ∀ (y : Fin 1 → Fin P.order) (r : Nat → Nat), tape y r 0 % P.order = (y 0 : Nat) ∧
        (fun i => tape y r (i + 1)) = r := by
      intro y r
      exact ⟨by rw [tape_lt y r (by omega)]; exact Nat.mod_eq_of_lt (y 0).isLt, tape_drop y r⟩
    have r₁ := commit_run (env := env) (c := c₁) hk₁ hord (hc₁ ▸ hg) rfl hfit' (next := next) (w := ⟨σ₁, tape a (tape b rest)⟩) hv₁
      (s1 := ((a 0 : Nat) : Int)) (by simp only [(hone a _).1]) rfl (by rw [(hone a _).2]; exact p₁)
    have r₂ := commit_run (env := env) (c := c₂) hk₂ hord (hc₂ ▸ hg) hlen.symm hfit' (next := next) (w := ⟨σ₂, tape (f a) (tape (e b) rest)⟩) hv₂
      (s1 := ((f a 0 : Nat) : Int)) (by simp only [(hone (f a) _).1])
      (lhs := ⟨P.G1, ((a 0 : Nat) : Int) • g1'.val + lin ms₁ gs⟩) (by rw [hcom a]) (by rw [(hone (f a) _).2]; exact p₂)
    rw [tape_append, tape_append]
    unfold requestOf
    rw [pm_bind_eq r₁, pm_bind_eq r₂]
    exact ⟨_, _, _, rfl, rfl, rfl, rfl⟩
  choose e he using hall
  let g : Equiv.Perm ((Fin 1 → Fin P.order) × (Fin (ms₁.length + 1) → Fin P.order)) := Equiv.prodShear f e
  refine ⟨(Fin.appendEquiv 1 (ms₁.length + 1)).symm.trans (g.trans (Fin.appendEquiv 1 (ms₁.length + 1))), fun y rest => ?_⟩
  obtain ⟨a, b, rfl⟩ := append_surj y
  have happ : Fin.append a b = Fin.appendEquiv 1 (ms₁.length + 1) (a, b) := rfl
  obtain ⟨v, w, w', h1, h2, h3, h4⟩ := he a b rest
  refine ⟨v, w, w', h1, h2, ?_, h4⟩
  rw [happ]
  simp only [Equiv.trans_apply, Equiv.symm_apply_apply]
  exact h3

/-- **C68** Whatever the issuer looks for in a request, it finds it for one list of messages as often as for the
other. -/
theorem C68_messages_hidden (P : Pairing E) (env : Env E) (pk : PublicKey E) (hk : GoodKey P pk)
    (hord : P.order ≠ 0) (htor : ∀ g ∈ pk.generators, (P.order : Int) • g.val = 0) (g1 : Pt E)
    (hg1 : pk.generators[1]? = some g1) (hgen : ∀ g ∈ pk.generators, ∃ a : Int, g.val = a • g1.val)
    (ms₁ ms₂ : List Int) (hlen : ms₁.length = ms₂.length) (hfit : ms₁.length + 2 ≤ pk.generators.length)
    (c₁ c₂ : Creator E) (hc₁ : c₁.pk = pk) (hc₂ : c₂.pk = pk) (next : Nat) (σ₁ σ₂ : Store)
    (hn₁ : ((freshSecs next (ms₁.length + 1)).map σ₁.name).Nodup) (hn₂ : ((freshSecs next (ms₁.length + 1)).map σ₂.name).Nodup)
    (hv₁ : ∀ x ∈ freshSecs next (ms₁.length + 1), σ₁.value x = none)
    (hv₂ : ∀ x ∈ freshSecs next (ms₁.length + 1), σ₂.value x = none) (S : UserCommitment E → Prop) (rest : Nat → Nat) :
    Nat.card {y : Fin (1 + (ms₁.length + 1)) → Fin P.order //
      ∃ m w, requestOf env c₁ ms₁ next ⟨σ₁, tape y rest⟩ = .ok (m, w) ∧ S m} =
    Nat.card {y : Fin (1 + (ms₁.length + 1)) → Fin P.order //
      ∃ m w, requestOf env c₂ ms₂ next ⟨σ₂, tape y rest⟩ = .ok (m, w) ∧ S m} :=
  (C68_requests_coincide P env pk hk hord htor g1 hg1 hgen ms₁ ms₂ hlen hfit c₁ c₂ hc₁ hc₂ next σ₁ σ₂ hn₁ hn₂ hv₁ hv₂).count
    rest S

/-- **C68** The number of messages is not hidden: it is one less than the number of responses. -/
theorem C68_number_shown (env : Env E) (c : Creator E) (ms : List Int) (next : Nat) (w w' : World) (m : UserCommitment E)
    (h : requestOf env c ms next w = .ok (m, w')) :
    ∃ nizk rs, m.proof = some nizk ∧ nizk.responses = .list rs ∧ rs.length = ms.length + 1 := by
  unfold requestOf Creator.commit at h
  obtain ⟨⟨m', c'⟩, w1, h1, h⟩ := pm_bind.mp h
  rw [pm_pure_iff] at h
  simp only [Prod.mk.injEq] at h
  obtain ⟨rfl, _⟩ := h
  obtain ⟨g0, _, h1⟩ := pm_liftE_bind_iff.mp h1
  obtain ⟨lhs, _, h1⟩ := pm_liftE_bind_iff.mp h1
  obtain ⟨s1, w2, _, h1⟩ := pm_bind.mp h1
  obtain ⟨g1, _, h1⟩ := pm_liftE_bind_iff.mp h1
  obtain ⟨l, _, h1⟩ := pm_liftE_bind_iff.mp h1
  rw [pm_getStore_bind] at h1
  obtain ⟨s, hs, h1⟩ := pm_liftE_bind_iff.mp h1
  obtain ⟨⟨nizk, t'⟩, w3, hp, h1⟩ := pm_bind.mp h1
  simp only [pm_pure_iff, Prod.mk.injEq] at h1
  obtain ⟨⟨rfl, _⟩, _⟩ := h1
  obtain ⟨rs, h2, h3⟩ := prove_rep_responses hp
  refine ⟨nizk, _, rfl, h2, ?_⟩
  have hv : s.secretVars = freshSecs next (ms.length + 1) := by
    unfold repOf at hs
    split at hs
    · cases hs
    · rw [(mkDLRep_ok hs).1]
  rw [List.length_map, h3, hv]
  simp [freshSecs]

/-- **C68** Without `zkp=True` nothing is hidden: the request is a function of the messages, and shows their sum
with the generators. -/
theorem C68_unblinded (P : Pairing E) (env : Env E) (pk : PublicKey E) (hk : GoodKey P pk) (c : Creator E)
    (hpk : c.pk = pk) (ms : List Int) (next : Nat) (w : World) :
    c.commit env ms false next w = .ok ((⟨⟨P.G1, lin ms (pk.generators.drop 2)⟩, none⟩, c), w) := by
  obtain ⟨g0, g1, gs, hg⟩ := gens_split hk
  have hgr := hk.g1
  subst hpk
  rw [hg] at hgr
  unfold Creator.commit
  have e0 : listAt c.pk.generators 0 = .ok g0 := by rw [listAt_ok, hg]; rfl
  have e2 : c.pk.generators.drop 2 = gs := by rw [hg]; rfl
  rw [e0, e2]
  simp only [pm_liftE_bind]
  rw [hgr g0 (by simp), wsum_lin rfl _ _ (fun p hp => hgr p (by simp [List.mem_of_mem_take hp])), lin_take _ _ _ le_rfl]
  rfl

/-- The messages 4, 6 and 1, 2 under the key `exPk`, whose generators are multiples of the second one. -/
example (y : NIZK (ZMod 7) → Prop) : Nat.card {b : Fin 4 → Fin 7 //
      ∃ m w, requestOf (Ex.env 5) (Creator.new exPk) [4, 6] 0 ⟨exNames, tape b id⟩ = .ok (m, w) ∧ ∃ z ∈ m.proof, y z} =
    Nat.card {b : Fin 4 → Fin 7 //
      ∃ m w, requestOf (Ex.env 5) (Creator.new exPk) [1, 2] 0 ⟨exNames, tape b id⟩ = .ok (m, w) ∧ ∃ z ∈ m.proof, y z} :=
  C68_messages_hidden exPairing (Ex.env 5) exPk exKey.good (by decide) (by decide) _ rfl (fun g _ => ⟨5 * (g.val.val : Int), by generalize g.val = v; revert v; decide⟩) [4, 6] [1, 2] rfl
    (by decide) _ _ rfl rfl 0 exNames exNames (by decide) (by decide) (by decide) (by decide) (fun m => ∃ z ∈ m.proof, y z) id

end Zksk.Props
