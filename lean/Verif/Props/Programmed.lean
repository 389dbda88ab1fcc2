import Verif.Lemmas.Programmed
import Verif.Props.ExtWitness
import Verif.Props.SimStmt
import Verif.Props.Library
import Verif.Props.Witness
import Verif.Props.Fork

/-! # C71: non-interactive proofs reveal nothing to those who do not control the hash function -/

set_option linter.unusedSectionVars false

namespace Zksk.Props

open Spec

variable {E : Type} [AddCommGroup E] [DecidableEq E]

/-- **C71** Whoever may choose one answer of the hash function makes proofs that are accepted, for every composition
of statements that can be simulated, true or false, without any secret: `simulate()` for the challenge that the answer
`a` stands for gives a proof such that the verifier asks exactly one question `q`, and accepts if the hash function
answers it by `a` -- unless `validate()` of an extended part refuses the simulated precommitment. -/
theorem C71_programmed_accepted (F : Profile E) (o : Nat) (Z : ExtSpec E → Val E → Prop) (env : Env E)
    (henv : Readable env) (t : Stmt E) (a : List UInt8) (msg : String) (w : World)
    (hs : EveryLeaf (SimLeaf F o w.store Z) t) (hZ : ∀ sp s, ¬ Z sp (.str s)) :
    ∃ nizk q t' w', programmed env t id a msg w = .ok ((nizk, q, t'), w') ∧ w'.store = w.store ∧
      EveryLeaf (LeafMade Z) t' ∧
      ∀ (σv : Store) (tv : Stmt E), VerifierFor σv tv t → Named F w.store.name t → Named F σv.name t →
        EveryLeaf LeafValid t' → asked env σv tv nizk msg = .ok q ∧
          verify (rehash env (answering env.sha q a)) σv tv nizk msg = .ok true := by
  obtain ⟨tr, id, t', w', h1, h2, hstr, hbytes, hpre, h3, h4, h5, h6⟩ := simulate_anywhere F o Z t _ w hs
  obtain ⟨x, hx⟩ := chunk_stmt env (hpre hZ)
  obtain ⟨y, hy⟩ := chunk_stmt env hstr
  obtain ⟨q, hq⟩ : ∃ q, env.challengeInput id tr.precommitment tr.commitment msg = .ok q := by
    unfold Env.challengeInput
    simp only [hx, hy, bind_ok]
    exact ⟨_, rfl⟩
  have hne := question_ne henv hbytes hq
  refine ⟨⟨tr.challenge, tr.responses, tr.precommitment, env.digest id⟩, q, t', w', ?_, h3, h5,
    fun σv tv hv hna hnv hval => ?_⟩
  · unfold programmed
    rw [pm_bind_eq (h1 env)]
    simp only [_root_.id]
    rw [pm_getStore_bind, h2, pm_liftE_bind, hq, pm_liftE_bind]
    rfl
  · have hA := ((h6 env σv tv hv hna hnv).1 hval).2 msg
    have hB := ((h6 (rehash env (answering env.sha q a)) σv tv hv hna hnv).1 hval).2 msg
    rw [digest_answering hne] at hB
    refine ⟨hA.2.trans hq, hB.1.mpr ?_⟩
    rw [fiatShamir_answering hq, h4 _ rfl]

/-- Precommitments of the primitives are no strings. -/
private theorem simLeaf_primitive {q : Nat} {σ : Store} {l : Leaf E} (hl : Primitive q l) :
    SimLeaf anyProfile q σ (fun _ v => ∀ s, v ≠ .str s) l := by
  cases hl with
  | rep s h h' hq => exact ⟨h, h', hq⟩
  | notEqual s a ha hq h0 hgrp =>
    subst hq
    show CanSimulate _ _ _ _ a.spec
    rw [ha]
    refine canSimulate_mono ?_ (NotEqual.canSimulate (fun p hp => hgrp p (by simp at hp ⊢; tauto)) (hgrp _ (by simp)) h0
      anyProfile (fun _ _ => trivial) _)
    rintro v ⟨c, rfl⟩ s; simp
  | range s a ha hq h0 hgrp htor hn hp =>
    subst hq
    show CanSimulate _ _ _ _ a.spec
    rw [ha]
    refine canSimulate_mono ?_ (PowerTwo.canSimulate hgrp.1 hgrp.2 h0 htor hn (by rw [hp]; simp) anyProfile
      fun _ _ => trivial)
    exact fun v hv => hv.2
  | signature P s gen a ha hq h0 hP hk h3 hfit =>
    subst hq
    show CanSimulate _ _ _ _ a.spec
    rw [ha]
    refine canSimulate_mono ?_ (BBS.canSimulate hP hk h0 h3 hfit gen anyProfile (fun _ _ => trivial) _)
    rintro v ⟨⟨l, rfl⟩, _⟩ s; simp

/-- **C71** The instance for the primitives of the library in any combination with `&` and `|`. -/
theorem C71_primitives (o : Nat) (env : Env E) (henv : Readable env) (t : Stmt E) (a : List UInt8) (msg : String)
    (w : World) (hs : EveryLeaf (Primitive o) t) (hn : Function.Injective w.store.name) :
    ∃ nizk q t' w', programmed env t id a msg w = .ok ((nizk, q, t'), w') ∧ w'.store = w.store ∧
      ∀ (σv : Store) (tv : Stmt E), VerifierFor σv tv t → Function.Injective σv.name → EveryLeaf LeafValid t' →
        asked env σv tv nizk msg = .ok q ∧ verify (rehash env (answering env.sha q a)) σv tv nizk msg = .ok true := by
  have hs' : EveryLeaf (SimLeaf anyProfile o w.store fun _ v => ∀ s, v ≠ .str s) t := by
    clear hn
    induction hs with
    | leaf l h => exact .leaf l (simLeaf_primitive h)
    | all b subs hne _ ih => exact .all b subs hne ih
    | any b subs hne _ ih => exact .any b subs hne ih
  obtain ⟨nizk, q, t', w', h1, h2, _, h3⟩ := C71_programmed_accepted anyProfile o _ env henv t a msg w hs'
    (fun _ s h => h s rfl)
  exact ⟨nizk, q, t', w', h1, h2, fun σv tv hv hinj hval => h3 σv tv hv (fun x y _ _ h => hn h) (fun x y _ _ h => hinj h) hval⟩

/-- **C71** For conjunctions these proofs are the very proofs of the prover who knows the secrets: for every answer
`a` the random numbers of the prover can be translated one-to-one into random numbers of the simulator such that the
prover makes the same proof if the hash function answers `q` by `a`, and otherwise as it likes.  The simulator works on
an object `u` with the same public part and on a heap that need not contain any value. -/
theorem C71_same_proofs (F : Profile E) (o : Nat) (Z : ExtSpec E → Val E → Prop) (env : Env E) (henv : Readable env)
    (msg : String) (σs σ : Store) (t u : Stmt E) (d : Dict Int) (h : Hidden F o Z σs t σ d)
    (hu : publicPart u = publicPart t) :
    ∃ n, ∀ a, ∃ e : Equiv.Perm (Fin n → Fin o), ∀ (y : Fin n → Fin o) (rest : Nat → Nat), ∃ nizk q t' w u' w',
      prove (LeafProver E) (rehash env (answering env.sha q a)) t d msg ⟨σ, tape y rest⟩ = .ok ((nizk, t'), w) ∧
      w.rng = rest ∧
      programmed env u (pruned t) a msg ⟨σs, tape (e y) rest⟩ = .ok ((nizk, q, u'), w') ∧ w'.rng = rest := by
  obtain ⟨n, hv⟩ := stmt_views F o Z h.single h.conj h.ready h.hides h.named h.seen
  refine ⟨n, fun a => ?_⟩
  obtain ⟨e, hv⟩ := hv (env.toInt a)
  refine ⟨e, fun y rest => ?_⟩
  obtain ⟨v, id, com, r, w, w', h1, _, h2, ⟨tr, h3, h4, h5, h6, h7⟩, h8⟩ := hv y rest
  obtain ⟨nizk1, t1, w1, k1, -⟩ := C54_proofs_accepted F o Z (rehash env fun _ => a) t d ⟨σ, tape y rest⟩ msg h.single h.ready
  obtain ⟨id1, com1, k2, k3, -⟩ := prove_parts.mp ⟨t1, k1⟩
  unfold Env.fiatShamir at k3
  obtain ⟨q, k4, k5⟩ := bind_ok_iff.mp k3
  injection k5 with k5
  change env.challengeInput id1 nizk1.precommitment com1 msg = .ok q at k4
  change env.toInt a = nizk1.challenge at k5
  rw [← k5, h1] at k2
  simp only [Except.ok.injEq, Prod.mk.injEq] at k2
  obtain ⟨⟨rfl, rfl, rfl, rfl⟩, rfl⟩ := k2
  subst h5
  have hne := question_ne henv (simView_not_bytes h3) k4
  obtain ⟨u', hu'⟩ := (programmed_view (env := env) (t := u) (f := pruned t) (a := a) (msg := msg)
    (nizk := ⟨tr.challenge, tr.responses, pruned t tr.precommitment, env.digest id⟩) (q := q)
    (w := ⟨σs, tape (e y) rest⟩) (w' := w')).mpr ⟨tr, id, (by rw [simView_same hu]; exact h3), rfl, (by rw [h4]; exact k4)⟩
  obtain ⟨t', ht'⟩ := prove_parts.mpr (⟨id, tr.commitment, h1, fiatShamir_answering k4, (digest_answering hne).symm⟩ :
    ∃ id' com', honestView t d (⟨env.toInt a, nizk1.responses, nizk1.precommitment, env.digest id⟩ : NIZK E).challenge
      ⟨σ, tape y rest⟩ = .ok ((nizk1.precommitment, id', com', nizk1.responses), w) ∧
      (rehash env (answering env.sha q a)).fiatShamir id' nizk1.precommitment com' msg = .ok (env.toInt a) ∧
      env.digest id = (rehash env (answering env.sha q a)).digest id')
  exact ⟨_, q, t', w, u', w', ht', h2, by rw [hu', h6, h7, h4], h8⟩

/-- **C71** The distributions coincide, for every hash function: over the blocks of `n` uniform numbers below `o`, the
prover makes every proof exactly as often as the simulator makes it with the answer that the hash function gives to
the question that goes with the proof. -/
theorem C71_same_distribution (F : Profile E) (o : Nat) (Z : ExtSpec E → Val E → Prop) (env : Env E)
    (msg : String) (σs σ : Store) (t u : Stmt E) (d : Dict Int) (h : Hidden F o Z σs t σ d)
    (hu : publicPart u = publicPart t) :
    ∃ n, ∀ (rest : Nat → Nat) (nizk : NIZK E),
      Nat.card {y : Fin n → Fin o // ∃ t' w, prove (LeafProver E) env t d msg ⟨σ, tape y rest⟩ = .ok ((nizk, t'), w)} =
      Nat.card {y : Fin n → Fin o // ∃ q u' w,
        programmed env u (pruned t) (env.sha q) msg ⟨σs, tape y rest⟩ = .ok ((nizk, q, u'), w)} := by
  obtain ⟨n, hv⟩ := stmt_views F o Z h.single h.conj h.ready h.hides h.named h.seen
  have hsim : ∀ c, simView u c = simView t c := fun c => simView_same hu c
  refine ⟨n, fun rest nizk => ?_⟩
  have hchal : ∀ (c : Int) (y : Fin n → Fin o) tr id w, simView t c ⟨σs, tape y rest⟩ = .ok ((tr, id), w) →
      tr.challenge = c := by
    intro c y tr id w hw
    obtain ⟨e, hv⟩ := hv c
    obtain ⟨_, _, _, _, _, _, _, _, _, ⟨tr', h3, _, _, h6, _⟩, _⟩ := hv (e.symm y) rest
    rw [Equiv.apply_symm_apply, hw] at h3
    simp only [Except.ok.injEq, Prod.mk.injEq] at h3
    rw [h3.1.1]; exact h6
  obtain ⟨e, hv⟩ := hv nizk.challenge
  refine Nat.card_congr (e.subtypeEquiv fun y => ?_)
  obtain ⟨v, id, com, r, w, w', h1, _, h2, ⟨tr, h3, h4, h5, h6, h7⟩, h8⟩ := hv y rest
  constructor
  · rintro ⟨t', w1, hp⟩
    obtain ⟨id1, com1, k2, k3, k6⟩ := prove_parts.mp ⟨t', hp⟩
    unfold Env.fiatShamir at k3
    obtain ⟨q, k4, k5⟩ := bind_ok_iff.mp k3
    injection k5 with k5
    rw [h1] at k2
    simp only [Except.ok.injEq, Prod.mk.injEq] at k2
    obtain ⟨⟨rfl, rfl, rfl, rfl⟩, rfl⟩ := k2
    obtain ⟨u', hu'⟩ := programmed_view.mpr (⟨tr, id, (by rw [hsim, k5]; exact h3), (by rw [h6, h7, h4, ← k6]), (by rw [h4, h5]; exact k4)⟩ :
      ∃ tr id, simView u (env.toInt (env.sha q)) ⟨σs, tape (e y) rest⟩ = .ok ((tr, id), w') ∧
        nizk = ⟨tr.challenge, tr.responses, pruned t tr.precommitment, env.digest id⟩ ∧
        env.challengeInput id (pruned t tr.precommitment) tr.commitment msg = .ok q)
    exact ⟨q, u', w', hu'⟩
  · rintro ⟨q, u', w1, hp⟩
    obtain ⟨tr', id', k1, k2, k3⟩ := programmed_view.mp ⟨u', hp⟩
    rw [hsim] at k1
    have k4 := hchal _ _ _ _ _ k1
    have k5 : nizk.challenge = env.toInt (env.sha q) := by rw [k2]; exact k4
    rw [← k5, h3] at k1
    simp only [Except.ok.injEq, Prod.mk.injEq] at k1
    obtain ⟨⟨rfl, rfl⟩, rfl⟩ := k1
    have k6 : nizk.precommitment = v := by rw [k2]; exact h4
    have k7 : nizk.responses = r := by rw [k2]; exact h7
    have hfs : env.fiatShamir id nizk.precommitment com msg = .ok nizk.challenge := by
      rw [k6, ← h4, ← h5]
      unfold Env.fiatShamir
      rw [k3, k5]; rfl
    obtain ⟨t', ht'⟩ := prove_parts.mpr ⟨id, com, (by rw [h1, k6, k7]), hfs, (by rw [k2])⟩
    exact ⟨t', w, ht'⟩

/-- **C71** The same for plain representations and their conjunctions. -/
theorem C71_same_proofs_plain (env : Env E) (henv : Readable env) (msg : String) (σ σs : Store) (t : Core E)
    (d : Dict Int) (X : Key → Int) (M : Nat) (hM0 : M ≠ 0) (hM : ∀ x b, (x, b) ∈ terms t → b.grp.order ∣ M)
    (hs : Solid t) (ht : Torsion t) (hf : OrFree t) (hk : Knows t σ d X)
    (hsee : SeesSame (heapFor σ d t) σs (secrets t)) :
    ∃ n, ∀ a, ∃ e : Equiv.Perm (Fin n → Fin M), ∀ (y : Fin n → Fin M) (rest : Nat → Nat), ∃ nizk q t' w u' w',
      prove (DLRepProver E) (rehash env (answering env.sha q a)) t d msg ⟨σ, tape y rest⟩ = .ok ((nizk, t'), w) ∧
      w.rng = rest ∧
      programmed env t (fun _ => .none) a msg ⟨σs, tape (e y) rest⟩ = .ok ((nizk, q, u'), w') ∧ w'.rng = rest := by
  obtain ⟨n, hv⟩ := C24_transcripts_coincide σ σs t d X M hM0 hM hs ht hk.uniq hk.sat hk.comp hf hsee
  refine ⟨n, fun a => ?_⟩
  obtain ⟨e, hv⟩ := hv (env.toInt a)
  refine ⟨e, fun y rest => ?_⟩
  have hids : Tree.proofId (heapFor σ d t) t = Tree.proofId σs t :=
    (Tree.proofId_eq_iff (skel_core _) (skel_core _) (secretVars_core _) (secretVars_core _)).mpr ⟨rfl, hsee.1⟩
  -- the question, from a run in which every answer is `a`
  obtain ⟨n0, t0, w0, hp0, _⟩ := C49_prove_succeeds (rehash env fun _ => a) t d ⟨σ, tape y rest⟩ msg X hs ht hk.uniq
    hk.sat hk.comp
  obtain ⟨id, com, u, e1, e2, e3⟩ := prove_honest (w := ⟨σ, tape y rest⟩) hs ht hk.uniq hk.sat hk.comp hf
    (rehash env fun _ => a) msg
  have k3 := e3 _ _ _ hp0
  unfold Env.fiatShamir at k3
  obtain ⟨q, k4, -⟩ := bind_ok_iff.mp k3
  change env.challengeInput id .none com msg = .ok q at k4
  obtain ⟨T0, h1, h2⟩ := hv (rehash env fun _ => a) y rest
  obtain ⟨-, -, hcom, hchal, -⟩ := e2 _ _ _ _ h1
  obtain ⟨id0, i1, -, i3⟩ := simulatedRun_env h2
  obtain rfl : id0 = id := by
    rw [← hids] at i1
    exact Except.ok.inj (i1.symm.trans e1)
  have hne := question_ne henv (by rw [← hcom]; exact simulatedRun_not_bytes h2) k4
  -- the run in which only that question is answered by `a`
  obtain ⟨T1, h3, h4⟩ := hv (rehash env (answering env.sha q a)) y rest
  rw [i3] at h4
  simp only [Except.ok.injEq, Prod.mk.injEq, true_and, and_true] at h4
  subst h4
  obtain ⟨id1, com1, u1, f1, f2, -⟩ := prove_honest (w := ⟨σ, tape y rest⟩) hs ht hk.uniq hk.sat hk.comp hf
    (rehash env (answering env.sha q a)) msg
  obtain ⟨-, -, hcom1, -, hp⟩ := f2 _ _ _ _ h3
  obtain rfl : id0 = id1 := Except.ok.inj (e1.symm.trans f1)
  have hp := hp (by rw [← hcom1]; simp only [hcom]; exact fiatShamir_answering k4)
  obtain ⟨u', hu'⟩ := (programmed_run (env := env) (t := t) (f := fun _ => .none) (a := a) (msg := msg)
    (w := ⟨σs, tape (e y) rest⟩) (w' := ⟨σs, rest⟩) (nizk := ⟨env.toInt a, T0.responses, .none, env.digest id0⟩)
    (q := q)).mpr ⟨_, _, id0, i3 env, i1, by rw [← hchal], by rw [← hcom] at k4; exact k4⟩
  exact ⟨_, q, u1, _, u', _, hp, rfl, by rw [hu', digest_answering hne], rfl⟩

/-- **C71** The distributions coincide for plain representations and their conjunctions. -/
theorem C71_same_distribution_plain (env : Env E) (msg : String) (σ σs : Store) (t : Core E)
    (d : Dict Int) (X : Key → Int) (M : Nat) (hM0 : M ≠ 0) (hM : ∀ x b, (x, b) ∈ terms t → b.grp.order ∣ M)
    (hs : Solid t) (ht : Torsion t) (hf : OrFree t) (hk : Knows t σ d X)
    (hsee : SeesSame (heapFor σ d t) σs (secrets t)) :
    ∃ n, ∀ (rest : Nat → Nat) (nizk : NIZK E),
      Nat.card {y : Fin n → Fin M // ∃ t' w, prove (DLRepProver E) env t d msg ⟨σ, tape y rest⟩ = .ok ((nizk, t'), w)} =
      Nat.card {y : Fin n → Fin M // ∃ q u' w,
        programmed env t (fun _ => .none) (env.sha q) msg ⟨σs, tape y rest⟩ = .ok ((nizk, q, u'), w)} := by
  obtain ⟨n, hv⟩ := C24_transcripts_coincide σ σs t d X M hM0 hM hs ht hk.uniq hk.sat hk.comp hf hsee
  refine ⟨n, fun rest nizk => ?_⟩
  have hids : Tree.proofId (heapFor σ d t) t = Tree.proofId σs t :=
    (Tree.proofId_eq_iff (skel_core _) (skel_core _) (secretVars_core _) (secretVars_core _)).mpr ⟨rfl, hsee.1⟩
  have hchal : ∀ (c : Int) (y : Fin n → Fin M) v T w, simulatedRun env t c ⟨σs, tape y rest⟩ = .ok ((v, T), w) →
      T.challenge = c := by
    intro c y v T w hw
    obtain ⟨e, hv⟩ := hv c
    obtain ⟨T', h1, h2⟩ := hv env (e.symm y) rest
    obtain ⟨_, _, _, _, e2, _⟩ := prove_honest (w := ⟨σ, tape (e.symm y) rest⟩) hs ht hk.uniq hk.sat hk.comp hf env msg
    rw [Equiv.apply_symm_apply, hw] at h2
    simp only [Except.ok.injEq, Prod.mk.injEq] at h2
    rw [h2.1.2]
    exact (e2 _ _ _ _ h1).2.2.2.1
  obtain ⟨e, hv⟩ := hv nizk.challenge
  refine Nat.card_congr (e.subtypeEquiv fun y => ?_)
  obtain ⟨T, h1, h2⟩ := hv env y rest
  obtain ⟨id, com, u, e1, e2, e3⟩ := prove_honest (w := ⟨σ, tape y rest⟩) hs ht hk.uniq hk.sat hk.comp hf env msg
  obtain ⟨-, hhash, hcom, hch, hp⟩ := e2 _ _ _ _ h1
  constructor
  · rintro ⟨t', w, hpr⟩
    have hfs := e3 _ _ _ hpr
    have heq := (hp hfs).symm.trans hpr
    simp only [Except.ok.injEq, Prod.mk.injEq] at heq
    obtain ⟨q, k4, k5⟩ := bind_ok_iff.mp hfs
    injection k5 with k5
    obtain ⟨u', hu'⟩ := (programmed_run (env := env) (t := t) (f := fun _ => .none) (a := env.sha q) (msg := msg)
      (w := ⟨σs, tape (e y) rest⟩) (w' := ⟨σs, rest⟩) (nizk := nizk) (q := q)).mpr
      ⟨_, T, id, by rw [k5]; exact h2, by rw [← hids]; exact e1, by rw [hch]; exact heq.1.1.symm, by rw [hcom]; exact k4⟩
    exact ⟨q, u', _, hu'⟩
  · rintro ⟨q, u', w, hpr⟩
    obtain ⟨v, T', id', k1, k2, k3, k4⟩ := programmed_run.mp ⟨u', hpr⟩
    have k5 : nizk.challenge = env.toInt (env.sha q) := by rw [k3]; exact hchal _ _ _ _ _ k1
    rw [← k5, h2] at k1
    simp only [Except.ok.injEq, Prod.mk.injEq] at k1
    obtain ⟨⟨rfl, rfl⟩, rfl⟩ := k1
    obtain rfl : id' = id := by
      rw [← hids] at k2
      exact Except.ok.inj (k2.symm.trans e1)
    have hfs : env.fiatShamir id' .none com msg = .ok nizk.challenge := by
      rw [← hcom]
      unfold Env.fiatShamir
      rw [k4, k5]; rfl
    refine ⟨u, ⟨heapFor σ d t, rest⟩, ?_⟩
    rw [hp hfs, k3]

/-- **C71** Proofs of BBS+ signatures show nothing about the signature or the messages: they can be made, with the
same distribution, from an object without a signature, by somebody who knows neither. -/
theorem C71_bbs (P : Pairing E) (env : Env E) (msg : String) (gen : E) (flag : Bool) (s : BBS E) (sig : Signature E)
    (ms : List Int) (σ σs : Store) (d : Dict Int) (hg : GoodBBS P gen s) (hsig : s.signature = some sig)
    (h : Holder P gen s sig ms σ d)
    (hs : ∀ x ∈ [s.r1, s.r2, s.delta1, s.delta2] ++ s.vars, ∀ y ∈ [s.r1, s.r2, s.delta1, s.delta2] ++ s.vars,
      σs.name x = σs.name y → x = y) :
    ∃ n, ∀ (rest : Nat → Nat) (nizk : NIZK E),
      Nat.card {y : Fin n → Fin P.order // ∃ t' w,
        prove (LeafProver E) env (s.stmt gen flag) d msg ⟨σ, tape y rest⟩ = .ok ((nizk, t'), w)} =
      Nat.card {y : Fin n → Fin P.order // ∃ q u' w,
        programmed env (({ s with signature := none } : BBS E).stmt gen flag) id (env.sha q) msg ⟨σs, tape y rest⟩ =
          .ok ((nizk, q, u'), w)} :=
  C71_same_distribution s.profile P.order BBS.isDict env msg σs σ (s.stmt gen flag) _ d (hidden_bbs hg hsig h hs)
    (publicPart_bbs s gen flag none)

/-- The hypotheses of `C71_primitives` (hence of `C71_programmed_accepted`) are met by a disjunction of a
representation and of a conjunction of an inequality and a range proof, without any values. -/
example := C71_primitives 7 (Ex.lengthEnv [0]) (Ex.readable_lengthEnv _) exSimulated [0, 0] "m" ⟨exNeStore, fun _ => 3⟩
  exSimulated_primitive.1 exSimulated_primitive.2

/-- Those of `C71_same_proofs` by a BBS+ signature. -/
example := C71_same_proofs exBBS.profile 7 BBS.isDict (Ex.lengthEnv [0]) (Ex.readable_lengthEnv _) "m"
  ⟨exMsgs.name, fun _ => none⟩ exMsgs (exBBS.stmt 1 true) (({ exBBS with signature := none } : BBS (ZMod 7)).stmt 1 true) _
  (hidden_bbs exGood rfl exHolder fun _ _ _ _ h => exMsgs_name h) (publicPart_bbs exBBS 1 true none)

/-- Those of `C71_bbs` and `C71_same_distribution` too. -/
example := C71_bbs exPairing (Ex.lengthEnv [0]) "m" (1 : ZMod 7) true exBBS exSig [4, 6] exMsgs
  ⟨exMsgs.name, fun _ => none⟩ _ exGood rfl exHolder fun _ _ _ _ h => exMsgs_name h

/-- Those of `C71_same_proofs_plain` and `C71_same_distribution_plain` by `exConj`. -/
example := have ⟨h1, h2, h3, h4, h5, h6, h7, h8⟩ := exConj_hyps
  C71_same_proofs_plain (Ex.lengthEnv [0]) (Ex.readable_lengthEnv _) "m" Ex.σ Ex.σ0 exConj [(0, 2), (1, 3)] exVal 7
    (by decide) h1 h2 h3 h7 ⟨h4, h5, h6⟩ h8

end Zksk.Props
