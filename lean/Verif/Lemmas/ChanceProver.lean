import Verif.Lemmas.ChanceCommit
import Verif.Lemmas.Frame
import Verif.SpecChance

/-! Provers that are got from lively statements. -/

set_option linter.unusedSectionVars false

namespace Zksk.Chance

open Spec Peer

variable {E : Type} [AddCommGroup E] [DecidableEq E]

section generic

variable {L P : Type} [StmtOps E L] [ProverOps E L P]

/-- `Always` for provers. -/
inductive Wakes (lp : P → Prop) : PTree E L P → Prop
  | leaf (p : P) (h : lp p) : Wakes lp (.leaf p)
  | and (b : Bool) (subs : List (PTree E L P)) (p : PTree E L P) (hp : p ∈ subs) (h : Wakes lp p) : Wakes lp (.and b subs)
  | or (b : Bool) (i : Nat) (stmts : List (Tree L)) (sub : PTree E L P) (sims : List (Sim E)) (hi : i < stmts.length)
      (h : Wakes lp sub) : Wakes lp (.or b i stmts sub sims)

/-- All leaves of the statements in a prover have the property. -/
inductive Sound (RL : L → Prop) : PTree E L P → Prop
  | leaf (p : P) (h : RL (ProverOps.stmtOf p)) : Sound RL (.leaf p)
  | and (b : Bool) (subs : List (PTree E L P)) (h : ∀ p ∈ subs, Sound RL p) : Sound RL (.and b subs)
  | or (b : Bool) (i : Nat) (stmts : List (Tree L)) (sub : PTree E L P) (sims : List (Sim E))
      (hs : ∀ t ∈ stmts, Every RL t) (h : Sound RL sub) : Sound RL (.or b i stmts sub sims)

/-- What is needed of leaves. -/
structure More (P : Type) [ProverOps E L P] (q M : Nat) (dl : P → DLRep E → Prop) (op : P → Prop) (name : Sec → String)
    (RL lv : L → Prop) (lp : P → Prop) : Prop where
  regular : ∀ l, RL l → Regular q M (.leaf l : Tree L)
  getProver : ∀ l d σ, RL l → σ.name = name → Steps (fun a τ => τ.name = name ∧ RL a.2 ∧
    ∀ p, a.1 = some p → RL (ProverOps.stmtOf p) ∧ (lv l → lp p))
    (starting σ (ProverOps.getProver l d : PM (Option P × L)))
  precommit : ∀ p σ, RL (ProverOps.stmtOf p) → σ.name = name → Steps (fun a τ => τ.name = name ∧
    (∀ b, a.1 ≠ .bytes b) ∧ RL (ProverOps.stmtOf a.2) ∧ (lp p → op a.2 ∨ ∃ s x g, dl a.2 s ∧ Free q name s x g))
    (starting σ (ProverOps.precommit p : PM (Val E × P)))
  prepare : ∀ l σ, RL l → σ.name = name → Steps (fun a τ => τ.name = name ∧ RL a) (starting σ (StmtOps.prepareSim l : PM L))
  simulate : ∀ (l : L) d c σ, Steps (Same σ) (starting σ (StmtOps.simulate l d c : PM (Sim E)))

variable {q M : Nat} {dl : P → DLRep E → Prop} {op : P → Prop} {name : Sec → String} {RL lv : L → Prop} {lp : P → Prop}

theorem every_regular (m : More P q M dl op name RL lv lp) : ∀ t : Tree L, Every RL t → Regular q M t := by
  intro t
  induction t using Tree.ind with
  | leaf l => intro h; exact m.regular l (h l .leaf)
  | and b ts ih => intro h; exact regular_and fun t ht => ih t ht fun l hl => h l (.all _ _ t ht hl)
  | or b ts ih => intro h; exact regular_or fun t ht => ih t ht fun l hl => h l (.any _ _ t ht hl)

theorem sound_reg (m : More P q M dl op name RL lv lp) {p : PTree E L P} (h : Sound RL p) : Reg q M p := by
  induction h with
  | leaf p h => exact .leaf p (m.regular _ h)
  | and b subs _ ih => exact .and b subs ih
  | or b i stmts sub sims hs _ ih => exact .or b i stmts sub sims (fun t ht => every_regular m t (hs t ht)) ih

theorem challenge_steps (c : Option Int) (σ : Store) : Steps (Same σ) (starting σ (Tree.challengeOrDraw c)) := by
  cases c with
  | some c => exact .pure rfl
  | none =>
    unfold Tree.challengeOrDraw
    exact Steps.draw (Q := Same σ) _ fun _ _ => rfl

theorem simulate_steps (hs : ∀ (l : L) d c σ, Steps (Same σ) (starting σ (StmtOps.simulate l d c : PM (Sim E)))) (t : Tree L) :
    ∀ d c σ, Steps (Same σ) (starting σ (Tree.simulate t d c : PM (Sim E))) := by
  induction t using Tree.ind with
  | leaf l => intro d c σ; simp only [Tree.simulate]; exact hs l d c σ
  | and b ts ih =>
    intro d c σ
    have loop : ∀ ts : List (Tree L), (∀ t ∈ ts, ∀ d c σ, Steps (Same σ) (starting σ (Tree.simulate t d c : PM (Sim E)))) →
        ∀ d c σ, Steps (Same σ) (starting σ (Tree.simulateAnd ts d c : PM (List (Sim E)))) := by
      intro ts
      induction ts with
      | nil => intro _ d c σ; simp only [Tree.simulateAnd]; exact .pure rfl
      | cons t ts iht =>
        intro h d c σ
        simp only [Tree.simulateAnd]
        refine (h t (by simp) _ _ σ).bind fun a τ hτ => ?_
        subst hτ
        exact (iht (fun t ht => h t (by simp [ht])) _ _ _).bind fun _ τ hτ => .pure hτ
    simp only [Tree.simulate]
    refine (update_steps σ _ d).bind fun d' τ hτ => ?_
    subst hτ
    refine (challenge_steps c _).bind fun c' τ hτ => ?_
    subst hτ
    exact (loop ts ih _ _ _).bind fun _ τ hτ => .pure hτ
  | or b ts ih =>
    intro d c σ
    have loop : ∀ ts : List (Tree L), (∀ t ∈ ts, ∀ d c σ, Steps (Same σ) (starting σ (Tree.simulate t d c : PM (Sim E)))) →
        ∀ c acc σ, Steps (Same σ) (starting σ (Tree.simulateOr ts c acc : PM (List (Sim E)))) := by
      intro ts
      induction ts with
      | nil => intro _ c acc σ; simp only [Tree.simulateOr]; exact .pure rfl
      | cons t ts iht =>
        intro h c acc σ
        cases ts with
        | nil =>
          simp only [Tree.simulateOr]
          exact (h t (by simp) _ _ σ).bind fun _ τ hτ => .pure hτ
        | cons t' ts =>
          simp only [Tree.simulateOr]
          refine (h t (by simp) _ _ σ).bind fun a τ hτ => ?_
          subst hτ
          exact (iht (fun t ht => h t (by simp [ht])) _ _ _).bind fun _ τ hτ => .pure hτ
    simp only [Tree.simulate]
    refine (challenge_steps c _).bind fun c' τ hτ => ?_
    subst hτ
    exact (loop ts ih _ _ _).bind fun _ τ hτ => .pure hτ

theorem every_and {b : Bool} {ts : List (Tree L)} : Every RL (.and b ts) ↔ ∀ t ∈ ts, Every RL t :=
  ⟨fun h t ht l hl => h l (.all _ _ t ht hl), fun h l hl => by
    generalize hT : Tree.and b ts = T at hl
    cases hl with
    | leaf => cases hT
    | all b' us u hu hl => injection hT with _ e; exact h u (e ▸ hu) l hl
    | any b' us u hu hl => cases hT⟩

theorem every_or {b : Bool} {ts : List (Tree L)} : Every RL (.or b ts) ↔ ∀ t ∈ ts, Every RL t :=
  ⟨fun h t ht l hl => h l (.any _ _ t ht hl), fun h l hl => by
    generalize hT : Tree.or b ts = T at hl
    cases hl with
    | leaf => cases hT
    | any b' us u hu hl => injection hT with _ e; exact h u (e ▸ hu) l hl
    | all b' us u hu hl => cases hT⟩

theorem every_leaf {l : L} : Every RL (.leaf l) ↔ RL l :=
  ⟨fun h => h l .leaf, fun h l' hl => by cases hl; exact h⟩

theorem prepare_steps (m : More P q M dl op name RL lv lp) (t : Tree L) : ∀ σ, Every RL t → σ.name = name →
    Steps (fun a τ => τ.name = name ∧ Every RL a) (starting σ (Tree.prepareSim t : PM (Tree L))) := by
  have loop : ∀ ts : List (Tree L), (∀ t ∈ ts, ∀ σ, Every RL t → σ.name = name →
      Steps (fun a τ => τ.name = name ∧ Every RL a) (starting σ (Tree.prepareSim t : PM (Tree L)))) →
      ∀ σ, (∀ t ∈ ts, Every RL t) → σ.name = name →
      Steps (fun a τ => τ.name = name ∧ ∀ t ∈ a, Every RL t) (starting σ (Tree.prepareSimL ts : PM (List (Tree L)))) := by
    intro ts
    induction ts with
    | nil => intro _ σ _ hσ; simp only [Tree.prepareSimL]; exact .pure ⟨hσ, by simp⟩
    | cons t ts ih =>
      intro h σ he hσ
      simp only [Tree.prepareSimL]
      refine (h t (by simp) σ (he t (by simp)) hσ).bind fun a τ ⟨hτ, ha⟩ => ?_
      refine (ih (fun t ht => h t (by simp [ht])) τ (fun t ht => he t (by simp [ht])) hτ).bind fun as τ' ⟨hτ', has⟩ => ?_
      exact .pure ⟨hτ', fun t ht => by
        rcases List.mem_cons.mp ht with rfl | ht
        · exact ha
        · exact has t ht⟩
  induction t using Tree.ind with
  | leaf l =>
    intro σ h hσ
    simp only [Tree.prepareSim]
    exact (m.prepare l σ (every_leaf.mp h) hσ).bind fun a τ ⟨hτ, ha⟩ => .pure ⟨hτ, every_leaf.mpr ha⟩
  | and b ts ih =>
    intro σ h hσ
    simp only [Tree.prepareSim]
    exact (loop ts ih σ (every_and.mp h) hσ).bind fun a τ ⟨hτ, ha⟩ => .pure ⟨hτ, every_and.mpr ha⟩
  | or b ts ih =>
    intro σ h hσ
    simp only [Tree.prepareSim]
    exact (loop ts ih σ (every_or.mp h) hσ).bind fun a τ ⟨hτ, ha⟩ => .pure ⟨hτ, every_or.mpr ha⟩

theorem setup_steps (m : More P q M dl op name RL lv lp) (idx : Nat) : ∀ (ts : List (Tree L)) (i : Nat) σ,
    (∀ t ∈ ts, Every RL t) → σ.name = name →
    Steps (fun a τ => τ.name = name ∧ (∀ t ∈ a.1, Every RL t) ∧ a.1.length = ts.length)
      (starting σ (PTree.setupSimulations idx ts i : PM (List (Tree L) × List (Sim E))))
  | [], i, σ, _, hσ => by unfold PTree.setupSimulations; exact .pure ⟨hσ, by simp, rfl⟩
  | t :: ts, i, σ, h, hσ => by
    have ih := fun τ => setup_steps m idx ts (i + 1) τ fun t ht => h t (by simp [ht])
    unfold PTree.setupSimulations
    split
    · refine (ih σ hσ).bind fun a τ ⟨hτ, ha, hl⟩ => .pure ⟨hτ, fun u hu => ?_, by simp [hl]⟩
      rcases List.mem_cons.mp hu with rfl | hu
      · exact h u (by simp)
      · exact ha u hu
    · refine (prepare_steps m t σ (h t (by simp)) hσ).bind fun t' τ ⟨hτ, ht'⟩ => ?_
      refine (simulate_steps m.simulate t' none none τ).bind fun s τ' hτ' => ?_
      subst hτ'
      refine (ih _ hτ).bind fun a τ ⟨hτ, ha, hl⟩ => .pure ⟨hτ, fun u hu => ?_, by simp [hl]⟩
      rcases List.mem_cons.mp hu with rfl | hu
      · exact ht'
      · exact ha u hu

theorem candidates_mem : ∀ (ts : List (Tree L)) (i j : Nat), j ∈ PTree.candidates ts i →
    ∃ t, ts[j - i]? = some t ∧ i ≤ j ∧ Tree.simulated t = false
  | [], i, j, h => by simp [PTree.candidates] at h
  | t :: ts, i, j, h => by
    simp only [PTree.candidates] at h
    have key : j ∈ PTree.candidates ts (i + 1) → ∃ u, (t :: ts)[j - i]? = some u ∧ i ≤ j ∧ Tree.simulated u = false := by
      intro h
      obtain ⟨u, h1, h2, h3⟩ := candidates_mem ts (i + 1) j h
      refine ⟨u, ?_, by omega, h3⟩
      rw [show j - i = (j - (i + 1)) + 1 by omega]
      simpa using h1
    split at h
    · exact key h
    · rename_i hs
      rcases List.mem_cons.mp h with rfl | h
      · exact ⟨t, by simp, Nat.le_refl _, by simpa using hs⟩
      · exact key h

theorem choice_steps (l : List Nat) (σ : Store) : Steps (fun i τ => τ = σ ∧ i ∈ l) (starting σ (PTree.choice l)) := by
  unfold PTree.choice
  refine (Steps.draw (Q := Same σ) l.length fun _ _ => rfl).bind fun k τ hτ => ?_
  subst hτ
  cases h : l[k.toNat]? with
  | none => exact .raise
  | some x => exact .pure ⟨rfl, List.mem_of_getElem? h⟩

/-- What is said of the result of `get_prover`. -/
def Got (name : Sec → String) (RL : L → Prop) (lp : P → Prop) (st : Prop) (a : Option (PTree E L P) × Tree L) (τ : Store) : Prop :=
  τ.name = name ∧ Every RL a.2 ∧ ∀ p, a.1 = some p → Sound RL p ∧ (st → Wakes lp p)

theorem loop_got (ts : List (Tree L)) (acts : List (PM (Option (PTree E L P) × Tree L)))
    (hacts : ∀ (i : Nat) t act, ts[i]? = some t → acts[i]? = some act → ∀ σ, σ.name = name →
      Steps (Got name RL lp (Always lv t)) (starting σ act)) (hst : Prop)
    (hst' : hst → ∀ t ∈ ts, Tree.simulated t = false → Always lv t) :
    ∀ (n : Nat) (possible : List Nat) (stmts : List (Tree L)) σ,
    (∀ i ∈ possible, ∃ t, ts[i]? = some t ∧ Tree.simulated t = false) → (∀ t ∈ stmts, Every RL t) →
    stmts.length = ts.length → σ.name = name →
    Steps (fun a τ => τ.name = name ∧ (∀ t ∈ a.2, Every RL t) ∧ a.2.length = ts.length ∧
      ∀ i p, a.1 = some (i, p) → i < ts.length ∧ Sound RL p ∧ (hst → Wakes lp p))
      (starting σ (PTree.orLoop acts n possible stmts))
  | 0, possible, stmts, σ, _, hR, hl, hσ => by
    unfold PTree.orLoop
    exact .pure ⟨hσ, hR, hl, by simp⟩
  | n + 1, possible, stmts, σ, hp, hR, hl, hσ => by
    unfold PTree.orLoop
    split
    · exact .pure ⟨hσ, hR, hl, by simp⟩
    · refine (choice_steps possible σ).bind fun i τ ⟨hτ, hi⟩ => ?_
      subst hτ
      obtain ⟨t, ht, hs⟩ := hp i hi
      have hil : i < ts.length := (List.getElem?_eq_some_iff.mp ht).1
      cases hact : acts[i]? with
      | none => exact .raise
      | some act =>
        refine (hacts i t act ht hact _ hσ).bind fun a τ ⟨hτ, ha, hb⟩ => ?_
        have hR' : ∀ u ∈ stmts.set i a.2, Every RL u := fun u hu => by
          rcases List.mem_or_eq_of_mem_set hu with hu | rfl
          · exact hR u hu
          · exact ha
        obtain ⟨p?, t'⟩ := a
        cases p? with
        | some p =>
          refine .pure ⟨hτ, hR', by simp [hl], fun j p' he => ?_⟩
          simp only [Option.some.injEq, Prod.mk.injEq] at he
          obtain ⟨rfl, rfl⟩ := he
          obtain ⟨h1, h2⟩ := hb p rfl
          exact ⟨hil, h1, fun h => h2 (hst' h t (List.mem_of_getElem? ht) hs)⟩
        | none =>
          exact loop_got ts acts hacts hst hst' n (possible.erase i) _ τ
            (fun j hj => hp j (List.mem_of_mem_erase hj)) hR' (by simp [hl]) hτ

theorem allSome_mem {α : Type} : ∀ {l : List (Option α)} {l' : List α}, PTree.allSome l = some l' →
    l = l'.map some
  | [], l', h => by simp only [PTree.allSome, Option.some.injEq] at h; subst h; rfl
  | none :: l, l', h => by simp [PTree.allSome] at h
  | some a :: l, l', h => by
    simp only [PTree.allSome, Option.map_eq_some_iff] at h
    obtain ⟨k, hk, rfl⟩ := h
    simp [allSome_mem hk]

theorem updateSecret_name (σ : Store) (d : Dict Int) : (updateSecretValues σ d).name = σ.name := by
  unfold updateSecretValues
  induction d generalizing σ with
  | nil => rfl
  | cons e d ih => exact (ih _).trans rfl

theorem getProver_steps (m : More P q M dl op name RL lv lp) (t : Tree L) : ∀ d σ, Every RL t → σ.name = name →
    Steps (Got name RL lp (Always lv t)) (starting σ (PTree.getProver t d : PM (Option (PTree E L P) × Tree L))) := by
  induction t using Tree.ind with
  | leaf l =>
    intro d σ h hσ
    simp only [PTree.getProver]
    refine (m.getProver l d σ (every_leaf.mp h) hσ).bind fun a τ ⟨hτ, ha, hb⟩ => .pure ⟨hτ, every_leaf.mpr ha, fun p hp => ?_⟩
    simp only [Option.map_eq_some_iff] at hp
    obtain ⟨p', hp', rfl⟩ := hp
    obtain ⟨h1, h2⟩ := hb p' hp'
    refine ⟨.leaf p' h1, fun hs => .leaf p' (h2 ?_)⟩
    cases hs with
    | leaf _ h => exact h
  | and b ts ih =>
    intro d σ h hσ
    have loop : ∀ ts : List (Tree L), (∀ t ∈ ts, ∀ d σ, Every RL t → σ.name = name →
        Steps (Got name RL lp (Always lv t)) (starting σ (PTree.getProver t d : PM (Option (PTree E L P) × Tree L)))) →
        (∀ t ∈ ts, Every RL t) → ∀ σ, σ.name = name →
        Steps (fun a τ => τ.name = name ∧ (∀ t ∈ a.2, Every RL t) ∧ (∀ p, some p ∈ a.1 → Sound RL p) ∧
          ∀ t ∈ ts, Always lv t → ∀ ps : List (PTree E L P), a.1 = ps.map some → ∃ p ∈ ps, Wakes lp p)
          (starting σ (PTree.getProverL ts d : PM (List (Option (PTree E L P)) × List (Tree L)))) := by
      intro ts
      induction ts with
      | nil => intro _ _ σ hσ; simp only [PTree.getProverL]; exact .pure ⟨hσ, by simp, by simp, by simp⟩
      | cons t ts iht =>
        intro hh hR σ hσ
        simp only [PTree.getProverL]
        refine (hh t (by simp) d σ (hR t (by simp)) hσ).bind fun a τ ⟨hτ, ha, hb⟩ => ?_
        refine (iht (fun t ht => hh t (by simp [ht])) (fun t ht => hR t (by simp [ht])) τ hτ).bind
          fun as τ' ⟨hτ', has, hbs, hw⟩ => ?_
        refine .pure ⟨hτ', fun u hu => ?_, fun p hp => ?_, fun u hu hst ps hps => ?_⟩
        · rcases List.mem_cons.mp hu with rfl | hu
          · exact ha
          · exact has u hu
        · rcases List.mem_cons.mp hp with hp | hp
          · exact (hb p hp.symm).1
          · exact hbs p hp
        · cases ps with
          | nil => simp at hps
          | cons p ps =>
            simp only [List.map_cons, List.cons.injEq] at hps
            rcases List.mem_cons.mp hu with rfl | hu
            · exact ⟨p, by simp, (hb p hps.1).2 hst⟩
            · obtain ⟨p', hp', hw'⟩ := hw u hu hst ps hps.2
              exact ⟨p', by simp [hp'], hw'⟩
    simp only [PTree.getProver]
    refine .get (.set ?_)
    have hσ' : (updateSecretValues σ d).name = name := (updateSecret_name σ d).trans hσ
    split
    · exact .pure ⟨hσ', h, by simp⟩
    · refine (loop ts ih (every_and.mp h) _ hσ').bind fun a τ ⟨hτ, ha, hb, hw⟩ => ?_
      obtain ⟨ps, ts'⟩ := a
      simp only
      cases hs : PTree.allSome ps with
      | none => exact .raise
      | some ps' =>
        have hps := allSome_mem hs
        refine .pure ⟨hτ, every_and.mpr ha, fun p hp => ?_⟩
        simp only [Option.some.injEq] at hp
        subst hp
        refine ⟨.and _ _ fun p hp => hb p (by rw [hps]; exact List.mem_map_of_mem hp), fun hst => ?_⟩
        cases hst with
        | all _ _ t ht hst =>
          obtain ⟨p, hp, hw⟩ := hw t ht hst ps' hps
          exact .and _ _ p hp hw
  | or b ts ih =>
    intro d σ h hσ
    simp only [PTree.getProver]
    refine .get (.set ?_)
    have hσ' : (updateSecretValues σ d).name = name := (updateSecret_name σ d).trans hσ
    split
    · exact .pure ⟨hσ', h, by simp⟩
    · have hacts : ∀ (us : List (Tree L)) (i : Nat) t act, us[i]? = some t → (PTree.getProverActs us d)[i]? = some act →
          act = (PTree.getProver t d : PM (Option (PTree E L P) × Tree L)) := by
        intro us
        induction us with
        | nil => intro i t act h; simp at h
        | cons u us ihu =>
          intro i t act h1 h2
          simp only [PTree.getProverActs] at h2
          cases i with
          | zero =>
            simp only [List.getElem?_cons_zero, Option.some.injEq] at h1 h2
            rw [← h2, h1]
          | succ i => exact ihu i t act (by simpa using h1) (by simpa using h2)
      refine (loop_got (lp := lp) (lv := lv) ts (PTree.getProverActs ts d) (fun i t act h1 h2 τ hτ => ?_) (Always lv (.or b ts)) (fun hst t ht hs => ?_)
        _ (PTree.candidates ts 0) ts _ (fun i hi => ?_) (every_or.mp h) rfl hσ').bind fun a τ ⟨hτ, ha, hl, hb⟩ => ?_
      · rw [hacts ts i t act h1 h2]
        exact ih t (List.mem_of_getElem? h1) d τ (every_or.mp h t (List.mem_of_getElem? h1)) hτ
      · cases hst with
        | any _ _ h => exact h t ht hs
      · obtain ⟨t, h1, _, h3⟩ := candidates_mem ts 0 i hi
        exact ⟨t, h1, h3⟩
      · obtain ⟨r, ts'⟩ := a
        cases r with
        | none => exact .pure ⟨hτ, every_or.mpr ha, by simp⟩
        | some ip =>
          obtain ⟨i, p⟩ := ip
          obtain ⟨h1, h2, h3⟩ := hb i p rfl
          refine (setup_steps m i ts' 0 τ ha hτ).bind fun a' τ' ⟨hτ', ha', hl'⟩ => ?_
          refine .pure ⟨hτ', every_or.mpr ha', fun p' hp' => ?_⟩
          simp only [Option.some.injEq] at hp'
          subst hp'
          refine ⟨.or _ _ _ _ _ ha' h2, fun hst => .or _ _ _ _ _ ?_ (h3 hst)⟩
          rw [hl', hl]; exact h1

theorem live_and {b : Bool} {subs : List (PTree E L P)} {p : PTree E L P} (hp : p ∈ subs) (h : Live q name dl op p) :
    Live q name dl op (.and b subs) := by
  rcases h with h | ⟨s, x, g, h, hf⟩
  · exact .inl (.and _ _ p hp h)
  · exact .inr ⟨s, x, g, .and _ _ p hp h, hf⟩

theorem precommit_steps (m : More P q M dl op name RL lv lp) (p : PTree E L P) : ∀ σ, Sound RL p → σ.name = name →
    Steps (fun a τ => τ.name = name ∧ (∀ b, a.1 ≠ .bytes b) ∧ Sound RL a.2 ∧ (Wakes lp p → Live q name dl op a.2))
      (starting σ (PTree.precommit p)) := by
  induction p using PTree.ind with
  | leaf p =>
    intro σ h hσ
    simp only [PTree.precommit]
    cases h with
    | leaf _ h =>
      refine (m.precommit p σ h hσ).bind fun a τ ⟨hτ, hn, ha, hb⟩ => .pure ⟨hτ, hn, .leaf _ ha, fun hw => ?_⟩
      cases hw with
      | leaf _ hw =>
        rcases hb hw with hb | ⟨s, x, g, hb, hf⟩
        · exact .inl (.leaf _ hb)
        · exact .inr ⟨s, x, g, .leaf _ hb, hf⟩
  | and b subs ih =>
    intro σ h hσ
    have loop : ∀ ps : List (PTree E L P), (∀ p ∈ ps, ∀ σ, Sound RL p → σ.name = name →
        Steps (fun a τ => τ.name = name ∧ (∀ b, a.1 ≠ .bytes b) ∧ Sound RL a.2 ∧ (Wakes lp p → Live q name dl op a.2))
          (starting σ (PTree.precommit p))) → (∀ p ∈ ps, Sound RL p) → ∀ σ, σ.name = name →
        Steps (fun a τ => τ.name = name ∧ (∀ p ∈ a.2, Sound RL p) ∧
          ∀ p ∈ ps, Wakes lp p → ∃ p' ∈ a.2, Live q name dl op p') (starting σ (PTree.precommitL ps)) := by
      intro ps
      induction ps with
      | nil => intro _ _ σ hσ; simp only [PTree.precommitL]; exact .pure ⟨hσ, by simp, by simp⟩
      | cons p ps ihp =>
        intro hh hR σ hσ
        simp only [PTree.precommitL]
        refine (hh p (by simp) σ (hR p (by simp)) hσ).bind fun a τ ⟨hτ, _, ha, hb⟩ => ?_
        refine (ihp (fun t ht => hh t (by simp [ht])) (fun t ht => hR t (by simp [ht])) τ hτ).bind
          fun as τ' ⟨hτ', has, hbs⟩ => ?_
        refine .pure ⟨hτ', fun u hu => ?_, fun u hu hw => ?_⟩
        · rcases List.mem_cons.mp hu with rfl | hu
          · exact ha
          · exact has u hu
        · rcases List.mem_cons.mp hu with rfl | hu
          · exact ⟨a.2, by simp, hb hw⟩
          · obtain ⟨p', h1, h2⟩ := hbs u hu hw
            exact ⟨p', by simp [h1], h2⟩
    simp only [PTree.precommit]
    cases h with
    | and _ _ h =>
      refine (loop subs ih h σ hσ).bind fun a τ ⟨hτ, ha, hb⟩ => .pure ⟨hτ, fun b => ?_, .and _ _ ha, fun hw => ?_⟩
      · simp only [PTree.andPrecommitment]
        split <;> simp
      · cases hw with
        | and _ _ p hp hw =>
          obtain ⟨p', h1, h2⟩ := hb p hp hw
          exact live_and h1 h2
  | or b i stmts sub sims ih =>
    intro σ h hσ
    simp only [PTree.precommit]
    cases h with
    | or _ _ _ _ _ hs h =>
      refine (ih σ h hσ).bind fun a τ ⟨hτ, _, ha, hb⟩ => .lift fun vs _ =>
        .pure ⟨hτ, fun b => ?_, .or _ _ _ _ _ hs ha, fun hw => ?_⟩
      · dsimp only
        split <;> simp
      · cases hw with
        | or _ _ _ _ _ hi hw =>
          rcases hb hw with hb | ⟨s, x, g, hb, hf⟩
          · exact .inl (.orOpn _ _ _ _ _ hi hb)
          · exact .inl (.orDir _ _ _ _ _ s x g hi hb hf)

/-- All steps before the challenge. -/
def upTo (P : Type) {L : Type} [StmtOps E L] [ProverOps E L P] (t : Tree L) (d : Dict Int) : PM (Val E × Val E × PTree E L P) := do
  let (p?, _) ← (PTree.getProver t d : PM (Option (PTree E L P) × Tree L))
  match p? with
  | none => raise .attributeError
  | some p => do
    let (v, p1) ← PTree.precommit p
    let (com, p2) ← PTree.internalCommit p1 none
    pure (v, com, p2)

theorem upTo_seldom (kit : Kit (E := E) (L := L) q M dl op name) (m : More P q M dl op name RL lv lp) {t : Tree L}
    (ht : Every RL t) (hst : Always lv t) (d : Dict Int) {σ : Store} (hσ : σ.name = name) (v : Val E) :
    Seldom M q (fun a => content a.2.1 = v) (starting σ (upTo P t d)) := by
  unfold upTo
  refine .after (getProver_steps m t d σ ht hσ) fun a τ ⟨hτ, _, hb⟩ => ?_
  obtain ⟨p?, t'⟩ := a
  cases p? with
  | none => exact .never fun r a w h => by cases h
  | some p =>
    obtain ⟨h1, h2⟩ := hb p rfl
    refine .after (precommit_steps m p τ h1 hτ) fun a τ' ⟨hτ', _, ha, hw⟩ => ?_
    refine (live_seldom kit (hw (h2 hst)) (sound_reg m ha) hτ' v).before (commit_steps kit.steps _ none τ')
      fun b c w w' _ hk hp => ?_
    rw [pm_pure_iff] at hk
    simp only [Prod.mk.injEq] at hk
    obtain ⟨rfl, _⟩ := hk
    exact hp

/-- Commitments are points or lists. -/
theorem commit_not_bytes (hl : ∀ (p : P) o w a w', ProverOps.internalCommit p o w = .ok (a, w') → ∀ b, (a.1 : Val E) ≠ .bytes b)
    {p : PTree E L P} {o : Option (Dict Int)} {w w' : World} {a : Val E × PTree E L P}
    (h : PTree.internalCommit p o w = .ok (a, w')) (b : List UInt8) : a.1 ≠ .bytes b := by
  cases p with
  | leaf p =>
    simp only [PTree.internalCommit] at h
    obtain ⟨a1, w1, h1, h⟩ := pm_bind.mp h
    rw [pm_pure_iff] at h
    simp only [Prod.mk.injEq] at h
    obtain ⟨rfl, _⟩ := h
    exact hl p o w a1 w1 h1 b
  | and s subs =>
    simp only [PTree.internalCommit] at h
    rw [pm_getStore_bind] at h
    obtain ⟨_, _, h⟩ := pm_liftE_bind_iff.mp h
    obtain ⟨_, _, _, h⟩ := pm_bind.mp h
    obtain ⟨_, _, _, h⟩ := pm_bind.mp h
    rw [pm_pure_iff] at h
    simp only [Prod.mk.injEq] at h
    obtain ⟨rfl, _⟩ := h
    simp
  | or s i stmts sub sims =>
    simp only [PTree.internalCommit] at h
    rw [pm_getStore_bind] at h
    obtain ⟨_, _, h⟩ := pm_liftE_bind_iff.mp h
    obtain ⟨_, _, _, h⟩ := pm_bind.mp h
    obtain ⟨_, _, h⟩ := pm_liftE_bind_iff.mp h
    rw [pm_pure_iff] at h
    simp only [Prod.mk.injEq] at h
    obtain ⟨rfl, _⟩ := h
    simp

theorem upTo_not_bytes (m : More P q M dl op name RL lv lp)
    (hl : ∀ (p : P) o w a w', ProverOps.internalCommit p o w = .ok (a, w') → ∀ b, (a.1 : Val E) ≠ .bytes b) {t : Tree L}
    (ht : Every RL t) {d : Dict Int} {σ : Store} {r : Nat → Nat} (hσ : σ.name = name) {a : Val E × Val E × PTree E L P} {w : World}
    (h : upTo P t d ⟨σ, r⟩ = .ok (a, w)) : ∀ b, a.1 ≠ .bytes b ∧ a.2.1 ≠ .bytes b := by
  intro b
  unfold upTo at h
  obtain ⟨⟨p?, t'⟩, w1, h1, h⟩ := pm_bind.mp h
  obtain ⟨hτ, _, hb⟩ := (getProver_steps m t d σ ht hσ).result (r := r) h1
  cases p? with
  | none => exact (raise_ne.mp h).elim
  | some p =>
    dsimp only at h
    obtain ⟨⟨v, p1⟩, w2, h2, h'⟩ := pm_bind.mp h
    clear h
    obtain ⟨σ1, r1⟩ := w1
    obtain ⟨_, hv, _⟩ := (precommit_steps m p σ1 (hb p rfl).1 hτ).result (r := r1) h2
    obtain ⟨⟨com, p2⟩, w3, h3, h⟩ := pm_bind.mp h'
    rw [pm_pure_iff] at h
    simp only [Prod.mk.injEq] at h
    obtain ⟨rfl, _⟩ := h
    exact ⟨hv b, commit_not_bytes hl h3 b⟩

end generic

end Zksk.Chance
