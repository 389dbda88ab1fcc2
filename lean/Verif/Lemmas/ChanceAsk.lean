import Verif.Lemmas.ChanceRun
import Verif.Model.Interactive

/-! Questions of the prover to the hash function. -/

set_option linter.unusedSectionVars false

namespace Zksk.Chance

open Spec Peer

variable {E : Type} [AddCommGroup E] [DecidableEq E]

section generic

variable {L P : Type} [StmtOps E L] [ProverOps E L P]

/-- The steps after committing. -/
def finish (env : Env E) (msg : String) (a : Val E × Val E × PTree E L P) : PM (NIZK E × Tree L) := do
  let σ ← getStore
  let id ← liftE (Tree.proofId σ (PTree.stmtOf a.2.2))
  let c ← liftE (env.fiatShamir id a.1 a.2.1 msg)
  let r ← PTree.computeResponse a.2.2 c
  pure ({ challenge := c, responses := r, precommitment := a.1, stmtHash := env.digest id }, PTree.stmtOf a.2.2)

theorem prove_finish (env : Env E) (t : Tree L) (d : Dict Int) (msg : String) :
    prove P env t d msg = upTo P t d >>= finish env msg := by
  unfold prove upTo PTree.getNizkProof finish
  simp only [bind_assoc]
  congr 1
  funext a
  obtain ⟨p?, t'⟩ := a
  cases p? with
  | none => rfl
  | some p => simp only [bind_assoc, pure_bind]

/-- The results differ only if the question is one of those with another answer. -/
theorem differ_asked {env : Env E} {sha' : List UInt8 → List UInt8} {S : Finset (List UInt8)}
    (hS : ∀ x, x ∉ S → sha' x = env.sha x) (hid : ∀ id, env.idBytes id ∉ S) {t : Tree L} {d : Dict Int} {msg : String} {w : World}
    (h : prove P env t d msg w ≠ prove P (rehash env sha') t d msg w) :
    ∃ (a : Val E × Val E × PTree E L P) (w' : World) (id : PId E) (x : List UInt8), upTo P t d w = .ok (a, w') ∧
      env.challengeInput id a.1 a.2.1 msg = .ok x ∧ x ∈ S := by
  rw [prove_finish, prove_finish] at h
  cases ha : upTo P t d w with
  | error e =>
    exfalso
    apply h
    show (upTo P t d w >>= _) = (upTo P t d w >>= _)
    rw [ha]; rfl
  | ok aw =>
    obtain ⟨a, w'⟩ := aw
    rw [pm_bind_eq ha, pm_bind_eq ha] at h
    unfold finish at h
    rw [pm_getStore_bind, pm_getStore_bind] at h
    cases hi : Tree.proofId w'.store (PTree.stmtOf a.2.2) with
    | error e => rw [hi] at h; exact absurd rfl h
    | ok id =>
      rw [hi, pm_liftE_bind, pm_liftE_bind] at h
      have hdig : (rehash env sha').digest id = env.digest id := hS _ (hid id)
      cases hx : env.challengeInput id a.1 a.2.1 msg with
      | error e =>
        have e1 : env.fiatShamir id a.1 a.2.1 msg = .error e := by unfold Env.fiatShamir; rw [hx]; rfl
        have e2 : (rehash env sha').fiatShamir id a.1 a.2.1 msg = .error e := by
          unfold Env.fiatShamir
          have : (rehash env sha').challengeInput id a.1 a.2.1 msg = .error e := hx
          rw [this]; rfl
        rw [e1, e2] at h
        exact absurd rfl h
      | ok x =>
        refine ⟨a, w', id, x, rfl, hx, ?_⟩
        by_contra hn
        apply h
        have e1 : env.fiatShamir id a.1 a.2.1 msg = .ok (env.toInt (env.sha x)) := by unfold Env.fiatShamir; rw [hx]; rfl
        have e2 : (rehash env sha').fiatShamir id a.1 a.2.1 msg = .ok (env.toInt (env.sha x)) := by
          unfold Env.fiatShamir
          have : (rehash env sha').challengeInput id a.1 a.2.1 msg = .ok x := hx
          rw [this]
          show Except.ok (env.toInt (sha' x)) = _
          rw [hS x hn]
        rw [e1, e2, hdig]

/-- A question determines the content of the commitment. -/
theorem question_content {env : Env E} (henv : Readable env) {id id' : PId E} {v v' com com' : Val E} {msg : String} {x : List UInt8}
    (hv : ∀ b, v ≠ .bytes b) (hv' : ∀ b, v' ≠ .bytes b) (hc : ∀ b, com ≠ .bytes b) (hc' : ∀ b, com' ≠ .bytes b)
    (h : env.challengeInput id v com msg = .ok x) (h' : env.challengeInput id' v' com' msg = .ok x) :
    content com = content com' := by
  have hch : ∀ (u : Val E) y, (∀ b, u ≠ .bytes b) → env.chunk u = .ok y → y = env.encode u := by
    intro u y hu hy
    cases u <;> simp only [Env.chunk, Except.ok.injEq, reduceCtorEq] at hy <;> first | exact hy.symm | exact absurd rfl (hu _)
  unfold Env.challengeInput at h h'
  obtain ⟨a, ha, h⟩ := bind_ok_iff.mp h
  obtain ⟨b, hb, h⟩ := bind_ok_iff.mp h
  obtain ⟨a', ha', h'⟩ := bind_ok_iff.mp h'
  obtain ⟨b', hb', h'⟩ := bind_ok_iff.mp h'
  have ea := hch v a hv ha
  have eb := hch com b hc hb
  have ea' := hch v' a' hv' ha'
  have eb' := hch com' b' hc' hb'
  subst ea; subst eb; subst ea'; subst eb'
  have he := h.trans h'.symm
  simp only [Except.ok.injEq, List.append_assoc] at he
  have h1 := henv.ids _ _ _ _ he
  rw [h1] at he
  have h2 := henv.values _ _ _ _ (List.append_cancel_left he)
  exact (henv.values _ _ _ _ h2.2).1

variable {q M : Nat} {dl : P → DLRep E → Prop} {op : P → Prop} {name : Sec → String} {RL lv : L → Prop} {lp : P → Prop}

theorem questions_seldom (kit : Kit (E := E) (L := L) q M dl op name) (m : More P q M dl op name RL lv lp)
    (hl : ∀ (p : P) o w a w', ProverOps.internalCommit p o w = .ok (a, w') → ∀ b, (a.1 : Val E) ≠ .bytes b) {t : Tree L}
    (ht : Every RL t) (hst : Always lv t) (d : Dict Int) {σ : Store} (hσ : σ.name = name) {env : Env E} (henv : Readable env)
    {sha' : List UInt8 → List UInt8} {S : Finset (List UInt8)}
    (hS : ∀ x, x ∉ S → sha' x = env.sha x) (hid : ∀ id, env.idBytes id ∉ S) (msg : String) :
    ∃ N, ∀ n, N ≤ n → ∀ rest : Nat → Nat,
      q * Nat.card {y : Fin n → Fin M // prove P env t d msg ⟨σ, tape y rest⟩ ≠ prove P (rehash env sha') t d msg ⟨σ, tape y rest⟩} ≤
        S.card * M ^ n := by
  classical
  -- the content of the commitment in a question
  let cont : List UInt8 → Val E := fun x =>
    if h : ∃ (id : PId E) (v com : Val E), (∀ b, v ≠ .bytes b) ∧ (∀ b, com ≠ .bytes b) ∧ env.challengeInput id v com msg = .ok x
      then content h.choose_spec.choose_spec.choose else .none
  have hcont : ∀ (id : PId E) (v com : Val E) x, (∀ b, v ≠ .bytes b) → (∀ b, com ≠ .bytes b) →
      env.challengeInput id v com msg = .ok x → content com = cont x := by
    intro id v com x h1 h2 h3
    have hex : ∃ (id : PId E) (v com : Val E), (∀ b, v ≠ .bytes b) ∧ (∀ b, com ≠ .bytes b) ∧
        env.challengeInput id v com msg = .ok x := ⟨id, v, com, h1, h2, h3⟩
    simp only [cont, dif_pos hex]
    have hs := hex.choose_spec.choose_spec.choose_spec
    exact question_content henv h1 hs.1 h2 hs.2.1 h3 hs.2.2
  choose N hN using fun x => (upTo_seldom kit m ht hst d hσ (cont x)).count
  refine ⟨S.sup N, fun n hn rest => ?_⟩
  let T : List UInt8 → Type := fun x => {y : Fin n → Fin M // ∃ a w, starting σ (upTo P t d) (tape y rest) = .ok (a, w) ∧
    content a.2.1 = cont x}
  have hex : ∀ y : {y : Fin n → Fin M // prove P env t d msg ⟨σ, tape y rest⟩ ≠
      prove P (rehash env sha') t d msg ⟨σ, tape y rest⟩}, ∃ x : S, ∃ a w, starting σ (upTo P t d) (tape y.1 rest) = .ok (a, w) ∧
        content a.2.1 = cont x := by
    rintro ⟨y, hy⟩
    obtain ⟨a, w', id, x, h1, h2, h3⟩ := differ_asked hS hid hy
    have hb := upTo_not_bytes m hl ht hσ h1
    exact ⟨⟨x, h3⟩, a, w', h1, hcont id a.1 a.2.1 x (fun b => (hb b).1) (fun b => (hb b).2) h2⟩
  choose f hf using hex
  let g : {y : Fin n → Fin M // prove P env t d msg ⟨σ, tape y rest⟩ ≠
      prove P (rehash env sha') t d msg ⟨σ, tape y rest⟩} → (x : S) × T x := fun y => ⟨f y, y.1, hf y⟩
  have hg : Function.Injective g := by
    intro y y' he
    have : (g y).2.1 = (g y').2.1 := by rw [he]
    exact Subtype.ext this
  have h1 := Nat.card_le_card_of_injective g hg
  rw [Nat.card_sigma] at h1
  calc q * Nat.card _ ≤ q * ∑ x : S, Nat.card (T x) := Nat.mul_le_mul_left _ h1
    _ = ∑ x : S, q * Nat.card (T x) := Finset.mul_sum ..
    _ ≤ ∑ _x : S, M ^ n := Finset.sum_le_sum fun x _ => hN x n ((Finset.le_sup x.2).trans hn) rest
    _ = S.card * M ^ n := by simp

end generic

end Zksk.Chance
