import Verif.Lemmas.Oracle
import Verif.Lemmas.ChanceLib
import Verif.Lemmas.PretendStmtRun
import Verif.Lemmas.PretendProof

/-! Provers and outsiders with random hash functions. -/

set_option linter.unusedSectionVars false

namespace Zksk.Oracle

open Spec Chance

variable {E : Type} [AddCommGroup E] [DecidableEq E]

/-! ### Counting blocks by their first numbers -/

theorem card_first {M N j : Nat} {Pr : (Nat → Nat) → Prop}
    (h : ∀ (y : Fin N → Fin M) rest rest', Pr (tape y rest) ↔ Pr (tape y rest')) (rest rest' : Nat → Nat) :
    Nat.card {y : Fin (N + j) → Fin M // Pr (tape y rest)} = M ^ j * Nat.card {y : Fin N → Fin M // Pr (tape y rest')} := by
  have e : {y : Fin (N + j) → Fin M // Pr (tape y rest)} ≃ (Fin j → Fin M) × {y : Fin N → Fin M // Pr (tape y rest')} :=
    { toFun := fun y => (fun i => y.1 (Fin.natAdd N i), ⟨fun i => y.1 (Fin.castAdd j i), by
        have := y.2
        rw [← Fin.append_castAdd_natAdd (f := y.1), tape_split] at this
        exact (h _ _ _).mp this⟩)
      invFun := fun p => ⟨Fin.append p.2.1 p.1, by
        rw [tape_split]
        exact (h _ _ _).mp p.2.2⟩
      left_inv := fun y => Subtype.ext (Fin.append_castAdd_natAdd (f := y.1))
      right_inv := fun p => by
        obtain ⟨b, a, ha⟩ := p
        simp }
  rw [Nat.card_congr e, Nat.card_prod]
  simp

/-- A bound for long blocks is a bound for all blocks with the numbers that matter. -/
theorem bound_first {M N q : Nat} (hM : M ≠ 0) {Pr : (Nat → Nat) → Prop}
    (h : ∀ (y : Fin N → Fin M) rest rest', Pr (tape y rest) ↔ Pr (tape y rest'))
    (hb : ∃ N', ∀ n, N' ≤ n → ∀ rest, q * Nat.card {y : Fin n → Fin M // Pr (tape y rest)} ≤ M ^ n) :
    ∀ n, N ≤ n → ∀ rest, q * Nat.card {y : Fin n → Fin M // Pr (tape y rest)} ≤ M ^ n := by
  obtain ⟨N', hN'⟩ := hb
  have h0 : q * Nat.card {y : Fin N → Fin M // Pr (tape y fun _ => 0)} ≤ M ^ N := by
    have := hN' (N + N') (by omega) fun _ => 0
    rw [card_first h _ fun _ => 0, Nat.pow_add] at this
    have hp : 0 < M ^ N' := Nat.pow_pos (Nat.pos_of_ne_zero hM)
    refine Nat.le_of_mul_le_mul_left (c := M ^ N') ?_ hp
    calc M ^ N' * (q * _) = q * (M ^ N' * _) := by ring
      _ ≤ M ^ N * M ^ N' := this
      _ = M ^ N' * M ^ N := by ring
  intro n hn rest
  obtain ⟨j, rfl⟩ : ∃ j, n = N + j := ⟨n - N, by omega⟩
  rw [card_first h _ fun _ => 0, Nat.pow_add]
  calc q * (M ^ j * _) = M ^ j * (q * _) := by ring
    _ ≤ M ^ j * M ^ N := Nat.mul_le_mul_left _ h0
    _ = M ^ N * M ^ j := by ring

section generic

variable {L P : Type} [StmtOps E L] [ProverOps E L P]

/-- The question of a prover. -/
def Asks (P : Type) [ProverOps E L P] (env : Env E) (m : String) (t : Tree L) (d : Dict Int) (σ : Store) (r : Nat → Nat) (x : Bytes) : Prop :=
  ∃ (a : Val E × Val E × PTree E L P) (w : World) (id : PId E), upTo P t d ⟨σ, r⟩ = .ok (a, w) ∧
    Tree.proofId w.store (PTree.stmtOf a.2.2) = .ok id ∧ env.challengeInput id a.1 a.2.1 m = .ok x

theorem Asks.unique {env : Env E} {m : String} {t : Tree L} {d : Dict Int} {σ : Store} {r : Nat → Nat} {x x' : Bytes}
    (h : Asks P env m t d σ r x) (h' : Asks P env m t d σ r x') : x = x' := by
  obtain ⟨a, w, id, h1, h2, h3⟩ := h
  obtain ⟨a', w', id', h1', h2', h3'⟩ := h'
  rw [h1] at h1'
  simp only [Except.ok.injEq, Prod.mk.injEq] at h1'
  obtain ⟨rfl, rfl⟩ := h1'
  rw [h2] at h2'
  cases h2'
  rw [h3] at h3'
  cases h3'
  rfl

variable {q M : Nat} {dl : P → DLRep E → Prop} {op : P → Prop} {name : Sec → String} {RL lv : L → Prop} {lp : P → Prop}

/-- Seldom a given question. -/
theorem asks_seldom (kit : Kit (E := E) (L := L) q M dl op name) (m : More P q M dl op name RL lv lp)
    (hl : ∀ (p : P) o w a w', ProverOps.internalCommit p o w = .ok (a, w') → ∀ b, (a.1 : Val E) ≠ .bytes b) {t : Tree L}
    (ht : Every RL t) (hst : Always lv t) (d : Dict Int) {σ : Store} (hσ : σ.name = name) {env : Env E} (henv : Readable env)
    (msg : String) (x : Bytes) :
    ∃ N, ∀ n, N ≤ n → ∀ rest : Nat → Nat,
      q * Nat.card {y : Fin n → Fin M // Asks P env msg t d σ (tape y rest) x} ≤ M ^ n := by
  by_cases hex : ∃ r, Asks P env msg t d σ r x
  · obtain ⟨r0, a0, w0, id0, h1, h2, h3⟩ := hex
    obtain ⟨N, hN⟩ := (upTo_seldom kit m ht hst d hσ (content a0.2.1)).count
    refine ⟨N, fun n hn rest => le_trans (Nat.mul_le_mul_left _ ?_) (hN n hn rest)⟩
    refine Nat.card_mono (Set.toFinite _) ?_
    rintro y ⟨a, w, id, g1, g2, g3⟩
    have hb0 := upTo_not_bytes m hl ht hσ h1
    have hb := upTo_not_bytes m hl ht hσ g1
    exact ⟨a, w, g1, question_content henv (fun b => (hb b).1) (fun b => (hb0 b).1) (fun b => (hb b).2) (fun b => (hb0 b).2) g3 h3⟩
  · refine ⟨0, fun n _ rest => ?_⟩
    have : IsEmpty {y : Fin n → Fin M // Asks P env msg t d σ (tape y rest) x} := ⟨fun ⟨y, h⟩ => hex ⟨_, h⟩⟩
    rw [Nat.card_of_isEmpty]
    simp

/-- What `prove` makes if the answer to its question is `b`. -/
theorem prove_asking {env : Env E} {m : String} {t : Tree L} {d : Dict Int} {σ τ : Store} {r r' : Nat → Nat} {v com rr : Val E}
    {p : PTree E L P} {id : PId E} {x b : Bytes} (h : upTo P t d ⟨σ, r⟩ = .ok ((v, com, p), ⟨τ, r'⟩))
    (hid : Tree.proofId τ (PTree.stmtOf p) = .ok id) (hx : env.challengeInput id v com m = .ok x) (hne : x ≠ env.idBytes id)
    (hr : ∀ s, PTree.computeResponse p (env.toInt b) ⟨τ, s⟩ = .ok (rr, ⟨τ, s⟩)) (f : Bytes → Bytes) (π : NIZK E) :
    (∃ t' w, prove P (rehash env (answering f x b)) t d m ⟨σ, r⟩ = .ok ((π, t'), w)) ↔
      π = ⟨env.toInt b, rr, v, (rehash env f).digest id⟩ := by
  have hfs : (rehash env (answering f x b)).fiatShamir id v com m = .ok (env.toInt b) := by
    unfold Env.fiatShamir
    have : (rehash env (answering f x b)).challengeInput id v com m = .ok x := hx
    rw [this]
    show Except.ok (env.toInt (answering f x b x)) = _
    simp [answering]
  have hdig : (rehash env (answering f x b)).digest id = (rehash env f).digest id := by
    simp [Env.digest, rehash, answering, Ne.symm hne]
  have key : prove P (rehash env (answering f x b)) t d m ⟨σ, r⟩ =
      .ok ((⟨env.toInt b, rr, v, (rehash env f).digest id⟩, PTree.stmtOf p), ⟨τ, r'⟩) := by
    rw [prove_finish, pm_bind_eq h]
    unfold finish
    rw [pm_getStore_bind, hid, pm_liftE_bind, hfs, pm_liftE_bind, pm_bind_eq (hr _), hdig]
    rfl
  rw [key]
  constructor
  · rintro ⟨t', w, h⟩
    simp only [Except.ok.injEq, Prod.mk.injEq] at h
    exact h.1.1.symm
  · rintro rfl
    exact ⟨_, _, rfl⟩

/-- A prover and an outsider. -/
structure Scene (P : Type) [ProverOps E L P] (env : Env E) (m : String) (t : Tree L) (d : Dict Int) (σ : Store)
    (sim : (Bytes → Bytes) → Bytes → (Nat → Nat) → Except Err ((NIZK E × Bytes) × World)) (M N : Nat) : Prop where
  key : ∀ n, N ≤ n → ∀ b, ∃ e : Equiv.Perm (Fin n → Fin M), ∀ y, ∃ (v com : Val E) (p : PTree E L P) (τ : Store) (id : PId E)
    (x : Bytes) (rr : Val E), Tree.proofId τ (PTree.stmtOf p) = .ok id ∧ env.challengeInput id v com m = .ok x ∧ x ≠ env.idBytes id ∧
      (∀ s, PTree.computeResponse p (env.toInt b) ⟨τ, s⟩ = .ok (rr, ⟨τ, s⟩)) ∧
      ∀ rest, ∃ r', upTo P t d ⟨σ, tape y rest⟩ = .ok ((v, com, p), ⟨τ, r'⟩) ∧
        ∀ f, ∃ w', sim f b (tape (e y) rest) = .ok ((⟨env.toInt b, rr, v, (rehash env f).digest id⟩, x), w')

variable {env : Env E} {msg : String} {t : Tree L} {d : Dict Int} {σ : Store}
  {sim : (Bytes → Bytes) → Bytes → (Nat → Nat) → Except Err ((NIZK E × Bytes) × World)} {N : Nat}

namespace Scene

theorem asks (h : Scene P env msg t d σ sim M N) (b : Bytes) {n : Nat} (hn : N ≤ n) (y : Fin n → Fin M) :
    ∃ x, ∀ rest, Asks P env msg t d σ (tape y rest) x := by
  obtain ⟨e, he⟩ := h.key n hn b
  obtain ⟨v, com, p, τ, id, x, rr, h1, h2, h3, h4, h5⟩ := he y
  refine ⟨x, fun rest => ?_⟩
  obtain ⟨r', h6, _⟩ := h5 rest
  exact ⟨_, _, id, h6, h1, h2⟩

theorem first (h : Scene P env msg t d σ sim M N) (x : Bytes) (y : Fin N → Fin M) (rest rest' : Nat → Nat) :
    Asks P env msg t d σ (tape y rest) x ↔ Asks P env msg t d σ (tape y rest') x := by
  obtain ⟨x', hx'⟩ := h.asks [] (le_refl N) y
  constructor
  · intro hx
    rw [hx.unique (hx' _)]
    exact hx' _
  · intro hx
    rw [hx.unique (hx' _)]
    exact hx' _

/-- As a game. -/
theorem game (h : Scene P env msg t d σ sim M N) {n : Nat} (hn : N ≤ n) (rest : Nat → Nat) {ask : (Fin n → Fin M) → Bytes}
    (hask : ∀ y, Asks P env msg t d σ (tape y rest) (ask y)) :
    Game (fun f y π => ∃ t' w, prove P (rehash env f) t d msg ⟨σ, tape y rest⟩ = .ok ((π, t'), w))
      (fun f b y π x => ∃ w, sim f b (tape y rest) = .ok ((π, x), w)) ask where
  key b := by
    obtain ⟨e, he⟩ := h.key n hn b
    refine ⟨e, fun f y => ?_⟩
    obtain ⟨v, com, p, τ, id, x, rr, h1, h2, h3, h4, h5⟩ := he y
    obtain ⟨r', h6, h7⟩ := h5 rest
    obtain ⟨w', h7⟩ := h7 f
    obtain rfl : ask y = x := (hask y).unique ⟨_, _, id, h6, h1, h2⟩
    refine ⟨_, prove_asking h6 h1 h2 h3 h4 f, fun π' x' => ?_⟩
    rw [h7]
    constructor
    · rintro ⟨w, h⟩
      simp only [Except.ok.injEq, Prod.mk.injEq] at h
      exact ⟨h.1.1.symm, h.1.2.symm⟩
    · rintro ⟨rfl, rfl⟩
      exact ⟨_, rfl⟩

/-- The questions are in the table. -/
theorem table (h : Scene P env msg t d σ sim M N) {n : Nat} (hn : N ≤ n) (rest : Nat → Nat) {Q Ans : Finset Bytes}
    (hA : Ans.Nonempty) (hQ : ∀ y : Fin n → Fin M, ∀ b ∈ Ans, ∀ π x w, sim env.sha b (tape y rest) = .ok ((π, x), w) → x ∈ Q) :
    ∃ ask : (Fin n → Fin M) → {x // x ∈ Q}, ∀ y, Asks P env msg t d σ (tape y rest) (ask y).1 := by
  have : ∀ y : Fin n → Fin M, ∃ x : {x // x ∈ Q}, Asks P env msg t d σ (tape y rest) x.1 := by
    intro y
    obtain ⟨b, hb⟩ := hA
    obtain ⟨e, he⟩ := h.key n hn b
    obtain ⟨v, com, p, τ, id, x, rr, h1, h2, h3, h4, h5⟩ := he y
    obtain ⟨r', h6, h7⟩ := h5 rest
    obtain ⟨w', h7⟩ := h7 env.sha
    exact ⟨⟨x, hQ _ _ hb _ _ _ h7⟩, _, _, id, h6, h1, h2⟩
  choose ask hask using this
  exact ⟨ask, hask⟩

theorem bound (h : Scene P env msg t d σ sim M N) (hM : M ≠ 0) {n : Nat} (hn : N ≤ n) (rest : Nat → Nat)
    (hb : ∀ x, ∃ N', ∀ n, N' ≤ n → ∀ rest, q * Nat.card {y : Fin n → Fin M // Asks P env msg t d σ (tape y rest) x} ≤ M ^ n)
    {Q : Finset Bytes} {ask : (Fin n → Fin M) → {x // x ∈ Q}} (hask : ∀ y, Asks P env msg t d σ (tape y rest) (ask y).1) (x : Bytes) :
    q * Nat.card {y // (ask y).1 = x} ≤ M ^ n := by
  refine le_trans (Nat.mul_le_mul_left _ ?_) (bound_first (Pr := fun r => Asks P env msg t d σ r x) hM (h.first x) (hb x) n hn rest)
  refine Nat.card_mono (Set.toFinite _) ?_
  rintro y rfl
  exact hask y

variable {make : Env E → Bytes → PM (NIZK E × Bytes)} {σs : Store} {Q Ans : Finset Bytes}
  {D : (Bytes → Bytes) → (Bytes → Bytes) → NIZK E → Prop}

theorem yes_real (n : Nat) (rest : Nat → Nat) :
    yesToProofs env Q Ans n M rest D (fun env => prove P env t d msg) σ = Nat.card {p // RealYes env.sha Q Ans
      (fun f (y : Fin n → Fin M) π => ∃ t' w, prove P (rehash env f) t d msg ⟨σ, tape y rest⟩ = .ok ((π, t'), w)) D p} := by
  refine Nat.card_congr (Equiv.subtypeEquivRight fun p => exists_congr fun π => ?_)
  simp only [exists_and_right]

theorem yes_sim (n : Nat) (rest : Nat → Nat) :
    yesToPretended env Q Ans n M rest D make σs = Nat.card {p // SimYes env.sha Q Ans
      (fun f b (y : Fin n → Fin M) π x => ∃ w, make (rehash env f) b ⟨σs, tape y rest⟩ = .ok ((π, x), w)) D p} := by
  refine Nat.card_congr (Equiv.subtypeEquivRight fun p => exists_congr fun π => exists_congr fun x => ?_)
  simp only [exists_and_right]

theorem later (h : Scene P env msg t d σ (fun f b r => make (rehash env f) b ⟨σs, r⟩) M N) {n : Nat} (hn : N ≤ n) (rest : Nat → Nat)
    (hA : Ans.Nonempty) (hQ : ∀ y : Fin n → Fin M, ∀ b ∈ Ans, ∀ π x w, make env b ⟨σs, tape y rest⟩ = .ok ((π, x), w) → x ∈ Q)
    (hD : ∀ f g h π, D f h π ↔ D g h π) :
    yesToPretended env Q Ans n M rest D make σs =
      Ans.card * yesToProofs env Q Ans n M rest D (fun env => prove P env t d msg) σ := by
  obtain ⟨ask, hask⟩ := h.table hn rest hA hQ
  rw [yes_real, yes_sim]
  exact Oracle.later (h.game hn rest hask) hD

theorem before (h : Scene P env msg t d σ (fun f b r => make (rehash env f) b ⟨σs, r⟩) M N) (hM : M ≠ 0) {n : Nat} (hn : N ≤ n)
    (rest : Nat → Nat)
    (hb : ∀ x, ∃ N', ∀ n, N' ≤ n → ∀ rest, q * Nat.card {y : Fin n → Fin M // Asks P env msg t d σ (tape y rest) x} ≤ M ^ n)
    (hA : Ans.Nonempty) (hQ : ∀ y : Fin n → Fin M, ∀ b ∈ Ans, ∀ π x w, make env b ⟨σs, tape y rest⟩ = .ok ((π, x), w) → x ∈ Q)
    {k : Nat} {S : (Bytes → Bytes) → Finset Bytes} (hD : Observer k S D) :
    q * yesToPretended env Q Ans n M rest D make σs ≤
      q * (Ans.card * yesToProofs env Q Ans n M rest D (fun env => prove P env t d msg) σ) +
        k * (Ans.card ^ Q.card * Ans.card * M ^ n) ∧
    q * (Ans.card * yesToProofs env Q Ans n M rest D (fun env => prove P env t d msg) σ) ≤
      q * yesToPretended env Q Ans n M rest D make σs + k * (Ans.card ^ Q.card * Ans.card * M ^ n) := by
  obtain ⟨ask, hask⟩ := h.table hn rest hA hQ
  rw [yes_real, yes_sim]
  have := Oracle.before (sha := env.sha) (Ans := Ans) (h.game hn rest hask) hD (h.bound hM hn rest hb hask)
  have hc : Nat.card (Table Q Ans) = Ans.card ^ Q.card := by
    classical
    simp [Table, Nat.card_eq_fintype_card]
  rwa [hc] at this

end Scene

end generic

/-! ### The two kinds of statements -/

theorem stmt_scene {F : Profile E} {q M : Nat} {Z : ExtSpec E → Val E → Prop} {σ σs : Store} {d d' : Dict Int} {t u : Stmt E}
    (h : Clause.Pair F q M Z σ d t σs d' u) {env : Env E} (henv : Readable env) (m : String) :
    ∃ N, Scene (LeafProver E) env m t d σ (fun f b r => pretendedProofStmt (rehash env f) u d' b m ⟨σs, r⟩) M N := by
  obtain ⟨N, key⟩ := Clause.view_perm h
  refine ⟨N, ⟨fun n hn b => ?_⟩⟩
  obtain ⟨e, he⟩ := key n hn (env.toInt b)
  refine ⟨e, fun y => ?_⟩
  obtain ⟨A, τ, ⟨v, id, com, r⟩, τ', ⟨h1, h2, h3, h4, h6, h6', h5⟩, h7⟩ := he y
  simp only at h1 h2 h3 h5
  obtain ⟨x, hx⟩ := Ward.question env A.id m h6 h6'
  have hne := question_ne henv (com := A.commitment) (by rcases h6 with ⟨P, h⟩ | ⟨l, h⟩ <;> rw [h] <;> simp) hx
  refine ⟨A.precommitment, A.commitment, A.prover, τ, A.id, x, r, h4, hx, hne.symm, h5, fun rest => ?_⟩
  obtain ⟨r', h8, h9⟩ := h7 rest
  refine ⟨r', ?_, fun f => ⟨⟨τ', r'⟩, Clause.pretendedProof_iff.mpr ⟨v, id, com, r, h9, ?_, by rw [h1, h2]; rfl⟩⟩⟩
  · unfold Clause.preRun at h8
    obtain ⟨⟨p?, t0⟩, w1, g1, h8⟩ := pm_bind.mp h8
    cases p? with
    | none => exact (raise_ne.mp h8).elim
    | some p =>
      simp only at h8
      obtain ⟨⟨v, p1⟩, w3, g3, h8⟩ := pm_bind.mp h8
      simp only at h8
      rw [pm_getStore_bind, pm_liftE_bind_iff] at h8
      obtain ⟨id, g5, h8⟩ := h8
      obtain ⟨⟨com, p2⟩, w4, g4, h8⟩ := pm_bind.mp h8
      rw [pm_pure_iff, Prod.mk.injEq] at h8
      obtain ⟨rfl, rfl⟩ := h8
      unfold upTo
      rw [pm_bind_eq g1]
      simp only
      rw [pm_bind_eq g3]
      simp only
      rw [pm_bind_eq g4]
      rfl
  · rw [← h1, ← h2, ← h3]; exact hx

theorem core_scene {M : Nat} {σ σs : Store} {d d' : Dict Int} {X : Key → Int} {t u : Core E}
    (h : Ward.Pair M σ d X t σs d' u) {env : Env E} (henv : Readable env) (m : String) :
    ∃ N, Scene (DLRepProver E) env m t d σ (fun f b r => pretendedProof (rehash env f) u d' b m ⟨σs, r⟩) M N := by
  obtain ⟨N, key⟩ := Ward.view_perm h
  refine ⟨N, ⟨fun n hn b => ?_⟩⟩
  obtain ⟨e, he⟩ := key n hn (env.toInt b)
  refine ⟨e, fun y => ?_⟩
  obtain ⟨A, τ, ⟨v, id, com, r⟩, τ', ⟨⟨rfl, rfl⟩, h1, h2, h3, h4, h6, h6', h5⟩, h7⟩ := he y
  simp only at h1 h2 h3 h4 h5
  obtain ⟨x, hx⟩ := Ward.question env A.id2 m h6 h6'
  have hne := question_ne henv (com := A.commitment) (by rcases h6 with ⟨P, h⟩ | ⟨l, h⟩ <;> rw [h] <;> simp) hx
  have hup : ∀ w τ r', Peer.preRun t d w = .ok (A, ⟨τ, r'⟩) →
      upTo (DLRepProver E) t d w = .ok ((A.precommitment, A.commitment, A.prover), ⟨τ, r'⟩) ∧
      Tree.proofId τ (PTree.stmtOf A.prover) = .ok A.id2 := by
    intro w τ r' h8
    unfold Peer.preRun at h8
    obtain ⟨⟨p?, t0⟩, w1, g1, h8⟩ := pm_bind.mp h8
    cases p? with
    | none => exact (raise_ne.mp h8).elim
    | some p =>
      simp only at h8
      obtain ⟨⟨v, p1⟩, w3, g3, h8⟩ := pm_bind.mp h8
      simp only at h8
      rw [pm_getStore_bind, pm_liftE_bind_iff] at h8
      obtain ⟨id, g5, h8⟩ := h8
      obtain ⟨⟨com, p2⟩, w4, g4, h8⟩ := pm_bind.mp h8
      simp only at h8
      rw [pm_getStore_bind, pm_liftE_bind_iff] at h8
      obtain ⟨id2, g6, h8⟩ := h8
      rw [pm_pure_iff, Prod.mk.injEq] at h8
      obtain ⟨rfl, rfl⟩ := h8
      refine ⟨?_, g6⟩
      unfold upTo
      rw [pm_bind_eq g1]
      simp only
      rw [pm_bind_eq g3]
      simp only
      rw [pm_bind_eq g4]
      rfl
  obtain ⟨r0, h80, _⟩ := h7 fun _ => 0
  refine ⟨A.precommitment, A.commitment, A.prover, _, A.id2, x, r, (hup _ _ _ h80).2, hx, hne.symm, h5, fun rest => ?_⟩
  obtain ⟨r', h8, h9⟩ := h7 rest
  refine ⟨r', (hup _ _ _ h8).1, fun f => ⟨⟨heapFor σs d' u, r'⟩, ?_⟩⟩
  refine (Ward.pretendedProof_view (env := rehash env f) (q := x) h9 ?_).trans ?_
  · rw [← h1, ← h3, ← h4]; exact hx
  · rw [h1, h4]
    rfl

end Zksk.Oracle
