import Verif.Lemmas.Twin
import Verif.Lemmas.Hvzk

/-! Simulations of the same statement, with heaps that identify the same secrets, read the same numbers and
return the same transcripts. -/

set_option linter.unusedSectionVars false

namespace Zksk.Peer

open Spec

variable {E : Type} [AddCommGroup E] [DecidableEq E]

/-- Equal results, unchanged heaps. -/
def Equal {A : Type} (σ σ' : Store) (a : A) (τ : Store) (b : A) (τ' : Store) : Prop :=
  a = b ∧ τ = σ ∧ τ' = σ'

variable {M : Nat} {σ σ' : Store} {V : List Sec}


theorem get_same {α : Type} (h : SameKeys σ σ' V) {x : Sec} (hx : x ∈ V) : ∀ (d : Dict α),
    (∀ y ∈ d.map Prod.fst, y ∈ V) → Dict.get? σ' d x = Dict.get? σ d x
  | [], _ => rfl
  | (y, v) :: d, hd => by
    simp only [Dict.get?, h y (hd y (by simp)) x hx]
    rw [get_same h hx d fun z hz => hd z (by simp only [List.map_cons, List.mem_cons]; exact .inr hz)]

theorem drawDict_equal {M : Nat} {σ σ' : Store} : ∀ (D : Dict Nat), (∀ e ∈ D, e.2 ≠ 0) →
    Twin M (fun a τ b τ' => Equal σ σ' a τ b τ' ∧ a.map Prod.fst = D.map Prod.fst)
      (starting σ (Tree.drawDict D)) (starting σ' (Tree.drawDict D))
  | [], _ => .pure ⟨⟨rfl, rfl, rfl⟩, rfl⟩
  | (u, o) :: D, h => by
    simp only [Tree.drawDict]
    refine .bind (Twin.drawSame (h (u, o) (by simp))) ?_
    rintro a τ b τ' ⟨⟨rfl, rfl, rfl⟩, -⟩
    refine .bind (drawDict_equal D fun e he => h e (by simp [he])) ?_
    rintro a τ b τ' ⟨⟨rfl, rfl, rfl⟩, hk⟩
    exact .pure ⟨⟨rfl, rfl, rfl⟩, by simp [hk]⟩

theorem starting_leaf {s : DLRep E} (hs : SolidRep s) :
    starting σ (DLRep.getRandomizers s) = starting σ (Tree.drawDict (table σ (.leaf s))) := by
  funext r
  unfold starting
  rw [getRandomizers_dlrep_eq hs, drawDict_eq _ _ (table_nonzero (.leaf s hs))]
  rfl

theorem starting_and {b : Bool} {ts : List (Core E)} (hg : Good SolidRep (.and b ts)) :
    starting σ (Tree.getRandomizers (.and b ts)) = starting σ (Tree.drawDict (table σ (.and b ts))) := by
  funext r
  unfold starting
  rw [getRandomizers_and_eq hg, drawDict_eq _ _ (table_nonzero hg)]
  rfl

/-- A dictionary for these secrets, with keys in `V`. -/
def Covers (σ : Store) (V vars : List Sec) (d : Dict Int) : Prop :=
  (∀ y ∈ d.map Prod.fst, y ∈ V) ∧ ∀ x ∈ vars, ∃ v, Dict.get? σ d x = some v

theorem rand_leaf {s s' : DLRep E} (hs : SolidRep s) (hn : s'.norm = s.norm) (hV : SameKeys σ σ' V)
    (hsub : ∀ x ∈ s.secretVars, x ∈ V) :
    Twin M (fun a τ b τ' => Equal σ σ' a τ b τ' ∧ Covers σ V s.secretVars a)
      (starting σ (DLRep.getRandomizers s)) (starting σ' (DLRep.getRandomizers s')) := by
  have hb : Tree.blank (.leaf s' : Core E) = Tree.blank (.leaf s) := congrArg Tree.leaf hn
  have hs' : SolidRep s' := by
    have := good_blank (.leaf s hs) _ hb
    cases this with | leaf _ h => exact h
  have ht : table σ' (.leaf s' : Core E) = table σ (.leaf s) := by
    rw [table_blank hb]
    exact table_same fun x hx y hy => hV x (hsub x hx) y (hsub y hy)
  have key := (drawDict_equal (M := M) (σ := σ) (σ' := σ') (table σ (.leaf s)) (table_nonzero (.leaf s hs)))
  rw [starting_leaf hs, starting_leaf hs', ht]
  rw [← starting_leaf hs]
  have key : Twin M (fun a τ b τ' => Equal σ σ' a τ b τ' ∧ a.map Prod.fst = (table σ (.leaf s)).map Prod.fst)
      (starting σ (DLRep.getRandomizers s)) (starting σ' (Tree.drawDict (table σ (.leaf s)))) := by
    rw [starting_leaf hs]; exact key
  refine (key.left (P := fun a τ => τ = σ → ∀ x ∈ s.secretVars, ∃ v, Dict.get? σ a x = some v)
    fun r a w h _ => (DLRep.getRandomizers_ok h).2.2).mono ?_
  rintro a τ b τ' ⟨⟨⟨h1, h2, h3⟩, hk⟩, hc⟩
  refine ⟨⟨h1, h2, h3⟩, fun y hy => ?_, hc h2⟩
  rw [hk] at hy
  obtain ⟨e, he, rfl⟩ := List.mem_map.mp hy
  exact hsub _ (table_keys e he)

theorem rand_and {b b' : Bool} {ts ts' : List (Core E)} (hg : Good SolidRep (.and b ts))
    (hb : Tree.blank (.and b' ts' : Core E) = Tree.blank (.and b ts)) (hV : SameKeys σ σ' V)
    (hsub : ∀ x ∈ secretsL ts, x ∈ V) :
    Twin M (fun a τ c τ' => Equal σ σ' a τ c τ' ∧ Covers σ V (secretsL ts) a)
      (starting σ (Tree.getRandomizers (.and b ts))) (starting σ' (Tree.getRandomizers (.and b' ts'))) := by
  have hg' := good_blank hg _ hb
  have ht : table σ' (.and b' ts' : Core E) = table σ (.and b ts) := by
    rw [table_blank hb]
    exact table_same fun x hx y hy => hV x (hsub x hx) y (hsub y hy)
  have key := (drawDict_equal (M := M) (σ := σ) (σ' := σ') (table σ (.and b ts)) (table_nonzero hg))
  rw [starting_and hg', ht]
  have key : Twin M (fun a τ c τ' => Equal σ σ' a τ c τ' ∧ a.map Prod.fst = (table σ (.and b ts)).map Prod.fst)
      (starting σ (Tree.getRandomizers (.and b ts))) (starting σ' (Tree.drawDict (table σ (.and b ts)))) := by
    rw [starting_and hg]; exact key
  refine (key.left (P := fun a τ => τ = σ → ∀ x ∈ secretsL ts, ∃ v, Dict.get? σ a x = some v)
    fun r a w h _ => (Tree.getRandomizers_ok (secretVars_core _) (bases_core _)
      (le_of_eq (wf_length _ (wf_of_good hg))) h).2.2).mono ?_
  rintro a τ c τ' ⟨⟨⟨h1, h2, h3⟩, hk⟩, hc⟩
  refine ⟨⟨h1, h2, h3⟩, fun y hy => ?_, hc h2⟩
  rw [hk] at hy
  obtain ⟨e, he, rfl⟩ := List.mem_map.mp hy
  exact hsub _ (table_keys e he)

theorem upd_equal {vars : List Sec} {getR getR' : PM (Dict Int)} (hV : SameKeys σ σ' V)
    (hsub : ∀ x ∈ vars, x ∈ V)
    (hR : Twin M (fun a τ b τ' => Equal σ σ' a τ b τ' ∧ Covers σ V vars a) (starting σ getR) (starting σ' getR'))
    (d : Option (Dict Int)) (hd : ∀ d0, d = some d0 → Covers σ V vars d0) :
    Twin M (fun a τ b τ' => Equal σ σ' a τ b τ' ∧ Covers σ V vars a)
      (starting σ (Tree.updateRandomizersWith (.ok vars) getR d))
      (starting σ' (Tree.updateRandomizersWith (.ok vars) getR' d)) := by
  cases d with
  | none => exact hR
  | some d0 =>
    have hc := hd d0 rfl
    refine .ends (τ := σ) (τ' := σ') ⟨⟨rfl, rfl, rfl⟩, hc⟩ (fun r => update_given hc.2) fun r => update_given ?_
    intro x hx
    show ∃ v, Dict.get? σ' d0 x = some v
    rw [get_same hV (hsub x hx) d0 hc.1]
    exact hc.2 x hx

theorem challenge_equal (c : Option Int) :
    Twin M (Equal σ σ') (starting σ (Tree.challengeOrDraw c)) (starting σ' (Tree.challengeOrDraw c)) := by
  cases c with
  | some c => exact .pure ⟨rfl, rfl, rfl⟩
  | none => exact (Twin.drawSame (m := 2 ^ challengeLength) (by norm_num [challengeLength])).mono fun _ _ _ _ h => h.1

theorem lookup_equal {vars : List Sec} (hV : SameKeys σ σ' V) (hsub : ∀ x ∈ vars, x ∈ V) {d : Dict Int}
    (hc : Covers σ V vars d) : ∃ rs, DLRep.lookupAll σ d vars = .ok rs ∧ DLRep.lookupAll σ' d vars = .ok rs ∧
      rs.length = vars.length := by
  refine ⟨_, lookupAll_eq hc.2, ?_, by simp⟩
  rw [lookupAll_eq fun x hx => by rw [get_same hV (hsub x hx) d hc.1]; exact hc.2 x hx]
  congr 1
  refine List.map_congr_left fun x hx => ?_
  rw [get_same hV (hsub x hx) d hc.1]

theorem recompute_total {s : DLRep E} (h : SolidRep s) (c : Int) {rs : List Int}
    (hl : rs.length = s.secretVars.length) : ∃ com, DLRep.recompute s c (.list (rs.map Val.int)) = .ok com := by
  unfold DLRep.recompute Grp.wsum
  simp only [Val.elems, bind_ok]
  have hl : rs.length = s.bases.length := hl.trans h.1
  obtain ⟨p, hp, hg⟩ := wsumGo_progress rs s.bases s.lhs.grp.inf h.2.2.1
  rw [if_neg (by simp [hl]), hp]
  have hg' : p.grp = s.lhs.grp := hg
  simp [bind_ok, Pt.add, Pt.smul, hg']

theorem norm_fields {s s' : DLRep E} (h : s'.norm = s.norm) :
    s'.lhs = s.lhs ∧ s'.bases = s.bases ∧ s'.secretVars = s.secretVars := by
  refine ⟨?_, ?_, ?_⟩
  · have := congrArg DLRep.lhs h; exact this
  · have := congrArg DLRep.bases h; exact this
  · have := congrArg DLRep.secretVars h; exact this

theorem recompute_norm {s s' : DLRep E} (h : s'.norm = s.norm) (c : Int) (r : Val E) :
    DLRep.recompute s' c r = DLRep.recompute s c r := by
  obtain ⟨h1, h2, h3⟩ := norm_fields h
  unfold DLRep.recompute
  rw [h1, h2]

/-- Simulations of the same statement. -/
theorem simulate_equal (hV : SameKeys σ σ' V) : ∀ (t : Core E), Good SolidRep t → (∀ x ∈ secrets t, x ∈ V) →
    ∀ t' : Core E, Tree.blank t' = Tree.blank t → ∀ (d : Option (Dict Int)) (c : Option Int),
    (∀ d0, d = some d0 → Covers σ V (secrets t) d0) →
    Twin M (Equal σ σ') (starting σ (Tree.simulate t d c)) (starting σ' (Tree.simulate t' d c)) := by
  intro t
  induction t using Tree.ind with
  | leaf s =>
    intro hg hsub t' hb d c hd
    cases t' with
    | and _ _ => simp [Tree.blank] at hb
    | or _ _ => simp [Tree.blank] at hb
    | leaf s' =>
    cases hg with
    | leaf _ hs =>
    have hn : s'.norm = s.norm := by
      simp only [Tree.blank, Tree.leaf.injEq] at hb; exact hb
    obtain ⟨n1, n2, n3⟩ := norm_fields hn
    simp only [secrets] at hsub hd
    simp only [Tree.simulate, StmtOps.simulate, DLRep.simulate, DLRep.updateRandomizers]
    rw [n3]
    refine .bind (upd_equal hV hsub (rand_leaf hs hn hV hsub) d hd) ?_
    rintro a τ b τ' ⟨⟨rfl, rfl, rfl⟩, hc⟩
    refine .bind (challenge_equal c) ?_
    rintro c' τ b τ' ⟨rfl, rfl, rfl⟩
    refine .get ?_
    obtain ⟨rs, h1, h2, h3⟩ := lookup_equal hV hsub hc
    refine .lift h1 h2 ?_
    obtain ⟨com, hcom⟩ := recompute_total hs c' h3
    refine .lift hcom (by rw [recompute_norm hn]; exact hcom) ?_
    exact .pure ⟨rfl, rfl, rfl⟩
  | and b ts ih =>
    intro hg hsub t' hb d c hd
    cases t' with
    | leaf _ => simp [Tree.blank] at hb
    | or _ _ => simp [Tree.blank] at hb
    | and b' ts' =>
    have hsec : coreVars (.and b' ts' : Core E) = coreVars (.and b ts) := (shape_blank _ _ hb).2
    simp only [secrets] at hsub hd
    simp only [Tree.simulate, Tree.updateRandomizers]
    rw [secretVars_core, secretVars_core, hsec]
    refine .bind (upd_equal hV hsub (rand_and hg hb hV hsub) d hd) ?_
    rintro a τ b τ' ⟨⟨rfl, rfl, rfl⟩, hc⟩
    refine .bind (challenge_equal c) ?_
    rintro c' τ b τ' ⟨rfl, rfl, rfl⟩
    have hgs : ∀ t ∈ ts, Good SolidRep t := by cases hg with | and _ _ _ h => exact h
    have hbl : Tree.blankL ts' = Tree.blankL ts := by simpa only [Tree.blank, Tree.and.injEq, true_and] using hb
    have key : ∀ (us us' : List (Core E)), (∀ t ∈ us, t ∈ ts) → Tree.blankL us' = Tree.blankL us →
        Twin M (Equal τ τ') (starting τ (Tree.simulateAnd us a c')) (starting τ' (Tree.simulateAnd us' a c')) := by
      intro us
      induction us with
      | nil =>
        intro us' _ h
        cases us' with
        | cons _ _ => simp [Tree.blankL] at h
        | nil => exact .pure ⟨rfl, rfl, rfl⟩
      | cons u us ihu =>
        intro us' hm h
        cases us' with
        | nil => simp [Tree.blankL] at h
        | cons u' us' =>
        simp only [Tree.blankL, List.cons.injEq] at h
        have hu := hm u (by simp)
        have hsu : ∀ x ∈ secrets u, x ∈ secretsL ts := fun x hx => mem_secretsL.mpr ⟨u, hu, hx⟩
        simp only [Tree.simulateAnd]
        refine .bind (ih u hu (hgs u hu) (fun x hx => hsub x (hsu x hx)) u' h.1 (some a) (some c') ?_) ?_
        · intro d0 e
          injection e with e; subst e
          exact ⟨hc.1, fun x hx => hc.2 x (hsu x hx)⟩
        · rintro s1 τ b τ' ⟨rfl, rfl, rfl⟩
          refine .bind (ihu us' (fun t ht => hm t (by simp [ht])) h.2) ?_
          rintro ss τ b τ' ⟨rfl, rfl, rfl⟩
          exact .pure ⟨rfl, rfl, rfl⟩
    refine .bind (key ts ts' (fun t h => h) hbl) ?_
    rintro ss τ b τ' ⟨rfl, rfl, rfl⟩
    exact .pure ⟨rfl, rfl, rfl⟩
  | or b ts ih =>
    intro hg hsub t' hb d c hd
    cases t' with
    | leaf _ => simp [Tree.blank] at hb
    | and _ _ => simp [Tree.blank] at hb
    | or b' ts' =>
    simp only [secrets] at hsub
    simp only [Tree.simulate]
    refine .bind (challenge_equal c) ?_
    rintro c' τ b τ' ⟨rfl, rfl, rfl⟩
    have hgs : ∀ t ∈ ts, Good SolidRep t := by cases hg with | or _ _ _ h => exact h
    have hbl : Tree.blankL ts' = Tree.blankL ts := by simpa only [Tree.blank, Tree.or.injEq, true_and] using hb
    have key : ∀ (us us' : List (Core E)), (∀ t ∈ us, t ∈ ts) → Tree.blankL us' = Tree.blankL us →
        ∀ acc, Twin M (Equal τ τ') (starting τ (Tree.simulateOr us c' acc))
          (starting τ' (Tree.simulateOr us' c' acc)) := by
      intro us
      induction us with
      | nil =>
        intro us' _ h acc
        cases us' with
        | cons _ _ => simp [Tree.blankL] at h
        | nil => exact .pure ⟨rfl, rfl, rfl⟩
      | cons u us ihu =>
        intro us' hm h acc
        cases us' with
        | nil => simp [Tree.blankL] at h
        | cons u' us' =>
        simp only [Tree.blankL, List.cons.injEq] at h
        have hu := hm u (by simp)
        have hsu : ∀ x ∈ secrets u, x ∈ secretsL ts := fun x hx => mem_secretsL.mpr ⟨u, hu, hx⟩
        cases us with
        | nil =>
          cases us' with
          | cons _ _ => simp [Tree.blankL] at h
          | nil =>
          simp only [Tree.simulateOr]
          refine .bind (ih u hu (hgs u hu) (fun x hx => hsub x (hsu x hx)) u' h.1 none _ (by simp)) ?_
          rintro ss τ b τ' ⟨rfl, rfl, rfl⟩
          exact .pure ⟨rfl, rfl, rfl⟩
        | cons v us =>
          cases us' with
          | nil => simp [Tree.blankL] at h
          | cons v' us' =>
          simp only [Tree.simulateOr]
          refine .bind (ih u hu (hgs u hu) (fun x hx => hsub x (hsu x hx)) u' h.1 none none (by simp)) ?_
          rintro s1 τ b τ' ⟨rfl, rfl, rfl⟩
          refine .bind (ihu (v' :: us') (fun t ht => hm t (List.mem_cons_of_mem _ ht)) h.2 _) ?_
          rintro ss τ b τ' ⟨rfl, rfl, rfl⟩
          exact .pure ⟨rfl, rfl, rfl⟩
    refine .bind (key ts ts' (fun t h => h) hbl []) ?_
    rintro ss τ b τ' ⟨rfl, rfl, rfl⟩
    exact .pure ⟨rfl, rfl, rfl⟩

/-- The simulations of the other clauses of a disjunction. -/
theorem setup_equal {M : Nat} {σ σ' : Store} {V : List Sec} (hV : SameKeys σ σ' V) (idx : Nat) : ∀ (ts ts' : List (Core E)) (index : Nat),
    (∀ t ∈ ts, Good SolidRep t) → (∀ x ∈ secretsL ts, x ∈ V) → Tree.blankL ts' = Tree.blankL ts →
    Twin M (fun a τ b τ' => (a.2 = b.2 ∧ τ = σ ∧ τ' = σ') ∧ a.1 = ts ∧ b.1 = ts' ∧
        a.2.length + (if index ≤ idx ∧ idx < index + ts.length then 1 else 0) = ts.length)
      (starting σ (PTree.setupSimulations idx ts index : PM (List (Core E) × List (Sim E))))
      (starting σ' (PTree.setupSimulations idx ts' index : PM (List (Core E) × List (Sim E))))
  | [], ts', index, _, _, hb => by
    cases ts' with
    | cons _ _ => simp [Tree.blankL] at hb
    | nil =>
    refine .pure ⟨⟨rfl, rfl, rfl⟩, rfl, rfl, ?_⟩
    rw [if_neg (by simp)]; rfl
  | t :: ts, ts', index, hg, hsub, hb => by
    cases ts' with
    | nil => simp [Tree.blankL] at hb
    | cons t' ts' =>
    simp only [Tree.blankL, List.cons.injEq] at hb
    have hrec := setup_equal (M := M) hV idx ts ts' (index + 1) (fun t ht => hg t (by simp [ht]))
      (fun x hx => hsub x (by simp [secretsL, hx])) hb.2
    simp only [PTree.setupSimulations]
    by_cases hi : index = idx
    · rw [if_pos hi, if_pos hi]
      refine .bind hrec ?_
      rintro ⟨a1, a2⟩ τ ⟨b1, b2⟩ τ' ⟨⟨h1, rfl, rfl⟩, rfl, rfl, h3⟩
      simp only at h1 h3
      subst h1
      refine .pure ⟨⟨rfl, rfl, rfl⟩, rfl, rfl, ?_⟩
      rw [if_neg (by omega)] at h3
      rw [if_pos (by simp only [List.length_cons]; omega)]
      simp only [List.length_cons]
      omega
    · rw [if_neg hi, if_neg hi]
      have p1 : ∀ r, Tree.prepareSim t ⟨σ, r⟩ = .ok (t, ⟨σ, r⟩) := fun r => prepareSim_core t _
      have p2 : ∀ r, Tree.prepareSim t' ⟨σ', r⟩ = .ok (t', ⟨σ', r⟩) := fun r => prepareSim_core t' _
      refine .bind (Twin.ends (Q := fun a τ b τ' => a = t ∧ b = t' ∧ τ = σ ∧ τ' = σ')
        ⟨rfl, rfl, rfl, rfl⟩ p1 p2) ?_
      rintro a τ b τ' ⟨rfl, rfl, rfl, rfl⟩
      refine .bind (simulate_equal hV a (hg a (by simp)) (fun x hx => hsub x (by simp [secretsL, hx])) b hb.1
        none none (by simp)) ?_
      rintro s1 τ b τ' ⟨rfl, rfl, rfl⟩
      refine .bind hrec ?_
      rintro ⟨a1, a2⟩ τ ⟨b1, b2⟩ τ' ⟨⟨h1, rfl, rfl⟩, rfl, rfl, h3⟩
      simp only at h1 h3
      subst h1
      refine .pure ⟨⟨rfl, rfl, rfl⟩, rfl, rfl, ?_⟩
      simp only [List.length_cons]
      by_cases hc : index + 1 ≤ idx ∧ idx < index + 1 + a1.length
      · rw [if_pos hc] at h3; rw [if_pos (by omega)]; omega
      · rw [if_neg hc] at h3; rw [if_neg (by omega)]; omega

end Zksk.Peer
