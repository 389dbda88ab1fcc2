import Verif.Lemmas.Accept
import Verif.Lemmas.Codec
import Verif.SpecMalleable

/-! # Lemmas: changed responses -/

set_option linter.unusedSectionVars false

namespace Zksk
open Spec

variable {E : Type} [AddCommGroup E] [DecidableEq E]

/-- Two integer lists whose entries differ by multiples of 2^128 have the same sum modulo 2^128. -/
theorem sum_shift (M : Int) : ∀ (cs cs' : List Int), cs'.length = cs.length →
    (∀ (i : Nat) (c : Int), cs[i]? = some c → ∃ n : Int, cs'[i]? = some (c + M * 2 ^ 128 * n)) →
    ∃ n : Int, cs'.sum = cs.sum + M * 2 ^ 128 * n
  | [], [], _, _ => ⟨0, by simp⟩
  | [], _ :: _, h, _ => by simp at h
  | _ :: _, [], h, _ => by simp at h
  | c :: cs, c' :: cs', hl, h => by
    obtain ⟨n, hn⟩ := h 0 c (by simp)
    obtain ⟨n', hn'⟩ := sum_shift M cs cs' (by simpa using hl) fun i a hi => by
      simpa using h (i + 1) a (by simpa using hi)
    simp only [List.getElem?_cons_zero, Option.some.injEq] at hn
    refine ⟨n + n', ?_⟩
    rw [List.sum_cons, List.sum_cons, hn, hn']
    ring

theorem zip_shift {M : Int} (hM : ∀ x : E, M • x = 0) : ∀ (bs : List (Pt E)) (ws ws' : List Int),
    ws.length = bs.length → ws'.length = bs.length →
    (∀ (i : Nat) (w : Int), ws[i]? = some w → ∃ n : Int, ws'[i]? = some (w + M * n)) →
    (List.zipWith (fun w b => w • b.val) ws' bs).sum = (List.zipWith (fun w b => w • b.val) ws bs).sum
  | [], ws, ws', _, _, _ => by simp
  | _ :: _, [], _, h, _, _ => by simp at h
  | _ :: _, _ :: _, [], _, h, _ => by simp at h
  | b :: bs, w :: ws, w' :: ws', hl, hl', h => by
    obtain ⟨n, hn⟩ := h 0 w (by simp)
    simp only [List.getElem?_cons_zero, Option.some.injEq] at hn
    have ih := zip_shift hM bs ws ws' (by simpa using hl) (by simpa using hl') fun i a hi => by
      simpa using h (i + 1) a (by simpa using hi)
    rw [List.zipWith_cons_cons, List.zipWith_cons_cons, List.sum_cons, List.sum_cons, ih, hn, add_smul,
      mul_comm, mul_smul, hM, smul_zero, add_zero]

/-- Changed responses determine the same commitment, also from a changed challenge. -/
theorem raised_eqns {σ : Store} {M : Int} (hM : ∀ x : E, M • x = 0) {k : Core E} {c : Int}
    {r com : Val E} (he : Eqns k c r com) : ∀ (m : Key → Int) (r' : Val E) (n : Int), WellFormed k →
    Raised σ M k r m r' → Eqns k (c + M * 2 ^ 128 * n) r' com := by
  induction he with
  | rep s c r vs ws hr hlen hws hgrp =>
    intro m r' n hwf h
    simp only [WellFormed] at hwf
    cases h with
    | rep _ _ _ ws' hl h =>
      have hvs : s.bases.length ≤ vs.length := by
        by_contra hlt
        obtain ⟨x, hx⟩ : ∃ x, s.secretVars[vs.length]? = some x :=
          ⟨_, List.getElem?_eq_getElem (by omega)⟩
        obtain ⟨y, hy, _⟩ := h _ x hx
        have := elems_index hr hy
        simp at this
      have hwl : ws.length = s.bases.length := by
        have := congrArg List.length hws
        rw [List.length_take, List.length_map] at this
        omega
      have e : (s.lhs.grp, (List.zipWith (fun w b => w • b.val) ws s.bases).sum - c • s.lhs.val) =
          (s.lhs.grp, (List.zipWith (fun w b => w • b.val) ws' s.bases).sum -
            (c + M * 2 ^ 128 * n) • s.lhs.val) := by
        rw [zip_shift hM s.bases ws ws' hwl (by omega)]
        · rw [add_smul, mul_assoc, mul_comm M, mul_smul, hM, smul_zero, add_zero]
        · intro i w hi
          have hil := (List.getElem?_eq_some_iff.mp hi).1
          obtain ⟨x, hx⟩ : ∃ x, s.secretVars[i]? = some x :=
            ⟨_, List.getElem?_eq_getElem (by omega)⟩
          obtain ⟨y, hy, hw'⟩ := h i x hx
          have h1 := elems_index hr hy
          have h2 : (vs.take s.bases.length)[i]? = some (.int w) := by rw [hws, List.getElem?_map, hi]; rfl
          rw [List.getElem?_take_of_lt (by omega), h1] at h2
          simp only [Option.some.injEq, Val.int.injEq] at h2
          exact ⟨_, h2 ▸ hw'⟩
      have e' := (Prod.mk.injEq _ _ _ _ ▸ e).2
      rw [e']
      refine Eqns.rep s _ _ (ws'.map .int) ws' rfl (fun _ => by rw [List.length_map]; omega) ?_ ?_
      · rw [List.take_of_length_le (by rw [List.length_map]; omega)]
      · rw [show ws'.length = ws.length by omega]; exact hgrp
  | all sim subs c r coms ri hlen hri h ih =>
    intro m r' n hwf hr
    simp only [WellFormed] at hwf
    cases hr with
    | all _ _ _ _ ri' rs' hl hri' h' =>
      refine Eqns.all sim subs _ _ coms (fun i => (rs'[i]?).getD .none) hlen ?_ ?_
      · intro i hi
        simp only [Val.index]
        rw [List.getElem?_eq_getElem (by omega)]; rfl
      · intro i t com ht hcom
        have hi := (List.getElem?_eq_some_iff.mp ht).1
        have e1 := Except.ok.inj ((hri i hi).symm.trans (hri' i hi))
        have hr' : rs'[i]? = some rs'[i] := List.getElem?_eq_getElem (by omega)
        rw [hr', Option.getD_some]
        exact ih i t com ht hcom m _ n (wellFormedL_get hwf.2 ht) (e1 ▸ h' i t _ ht hr')
  | any sim subs c r rs cs coms ri hcs hrs hsum hlen hlen' hri h ih =>
    intro m r' n hwf hr
    simp only [WellFormed] at hwf
    cases hr with
    | any _ _ _ rs2 _ mi ri' cs2 cs' rs' hl hcs2 hrs2 hl' hc hri' h' =>
      have e0 : cs2 = cs := by
        have := Except.ok.inj (hcs2.symm.trans hcs)
        simp only [Val.list.injEq] at this
        exact List.map_injective_iff.mpr (fun a b hab => by simpa using hab) this
      subst e0
      have e2 := Except.ok.inj (hrs2.symm.trans hrs)
      subst e2
      obtain ⟨N, hN⟩ := sum_shift M cs2 cs' hl' hc
      refine Eqns.any sim subs _ _ (.list rs') cs' coms (fun i => (rs'[i]?).getD .none) rfl rfl ?_ hlen
        (by omega) ?_ ?_
      · rw [hN, mul_comm M, mul_assoc, mul_assoc, Int.add_mul_emod_self_left,
          Int.add_mul_emod_self_left, hsum]
      · intro i hi
        simp only [Val.index]
        rw [List.getElem?_eq_getElem (by omega)]; rfl
      · intro i t com ci ht hcom hci
        have hi := (List.getElem?_eq_some_iff.mp ht).1
        have e1 := Except.ok.inj ((hri i hi).symm.trans (hri' i hi))
        have hr' : rs'[i]? = some rs'[i] := List.getElem?_eq_getElem (by omega)
        have hc2 : cs2[i]? = some cs2[i] := List.getElem?_eq_getElem (by omega)
        obtain ⟨n', hn'⟩ := hc i _ hc2
        rw [hci, Option.some.injEq] at hn'
        rw [hr', Option.getD_some, hn']
        exact ih i t com _ ht hcom hc2 (mi i) _ n' (wellFormedL_get hwf.2 ht) (e1 ▸ h' i t _ ht hr')

/-- Changed responses agree where the responses did. -/
theorem raised_agree {σ : Store} {M : Int} {k : Core E} {r r' : Val E} {m : Key → Int}
    (h : Raised σ M k r m r') : ∀ ρ : Key → Val E, Agree σ k r ρ → ∃ ρ', Agree σ k r' ρ' ∧
      ρ' = fun κ => match ρ κ with | .int y => .int (y + M * m κ) | v => v := by
  induction h with
  | rep s r m ws hl h =>
    intro ρ ha
    cases ha with
    | rep _ _ _ ha =>
      refine ⟨_, Agree.rep s _ _ fun i x hx => ?_, rfl⟩
      obtain ⟨y, hy, hw⟩ := h i x hx
      rw [← Except.ok.inj (hy.symm.trans (ha i x hx))]
      simp only [Val.index, List.getElem?_map, hw]
      rfl
  | all sim subs r m ri rs' hl hri h ih =>
    intro ρ ha
    cases ha with
    | all _ _ _ _ ri' hri' ha =>
      refine ⟨_, Agree.all sim subs _ _ (fun i => (rs'[i]?).getD .none) ?_ ?_, rfl⟩
      · intro i hi
        simp only [Val.index]
        rw [List.getElem?_eq_getElem (by omega)]; rfl
      · intro i t ht
        have hi := (List.getElem?_eq_some_iff.mp ht).1
        have e1 := Except.ok.inj ((hri i hi).symm.trans (hri' i hi))
        have hr' : rs'[i]? = some rs'[i] := List.getElem?_eq_getElem (by omega)
        obtain ⟨ρ', h1, h2⟩ := ih i t _ ht hr' ρ (e1 ▸ ha i t ht)
        rw [hr', Option.getD_some]
        exact h2 ▸ h1
  | any sim subs r rs m mi ri cs cs' rs' hl hcs hrs hl' hc hri h ih =>
    intro ρ ha
    cases ha with
    | any _ _ _ rs2 _ ri' ρi hrs2 hri' ha =>
      refine ⟨_, Agree.any sim subs _ (.list rs') _ (fun i => (rs'[i]?).getD .none)
        (fun i κ => match ρi i κ with | .int y => .int (y + M * mi i κ) | v => v) (fun _ => rfl) ?_ ?_, rfl⟩
      · intro i hi
        simp only [Val.index]
        rw [List.getElem?_eq_getElem (by omega)]; rfl
      · intro i t ht
        have hi := (List.getElem?_eq_some_iff.mp ht).1
        have hne : subs ≠ [] := by rintro rfl; simp at hi
        have e2 := Except.ok.inj (hrs.symm.trans (hrs2 hne))
        subst e2
        have e1 := Except.ok.inj ((hri i hi).symm.trans (hri' i hi))
        have hr' : rs'[i]? = some rs'[i] := List.getElem?_eq_getElem (by omega)
        obtain ⟨ρ', h1, h2⟩ := ih i t _ ht hr' (ρi i) (e1 ▸ ha i t ht)
        rw [hr', Option.getD_some]
        exact h2 ▸ h1

theorem secretsL_ne : ∀ {subs : List (Core E)}, secretsL subs ≠ [] → ∃ t ∈ subs, secrets t ≠ []
  | [], h => (h rfl).elim
  | t :: ts, h => by
    by_cases ht : secrets t = []
    · obtain ⟨t', h1, h2⟩ := secretsL_ne (subs := ts) (by simpa [secretsL, ht] using h)
      exact ⟨t', List.mem_cons_of_mem _ h1, h2⟩
    · exact ⟨t, by simp, ht⟩

/-- Responses that determine a commitment can be changed, in infinitely many ways if there is a
secret. -/
theorem raise_exists (σ : Store) {M : Int} (hM : M ≠ 0) {k : Core E} {c : Int} {r com : Val E}
    (he : Eqns k c r com) : ∀ ρ, Agree σ k r ρ → WellFormed k →
    ∃ f : Int → Val E, (∀ n, Raised σ M k r (fun _ => n) (f n)) ∧
      (secrets k ≠ [] → Function.Injective f) := by
  induction he with
  | rep s c r vs ws hr hlen hws hgrp =>
    intro ρ ha hwf
    simp only [WellFormed] at hwf
    cases ha with
    | rep _ _ _ ha =>
      have hv : ∀ (i : Nat) (x : Sec), s.secretVars[i]? = some x → ∃ y : Int, r.index i = .ok (.int y) ∧
          ws[i]? = some y := by
        intro i x hx
        have h1 := elems_index hr (ha i x hx)
        have hi := (List.getElem?_eq_some_iff.mp hx).1
        have h2 : (vs.take s.bases.length)[i]? = some (ρ (σ.key x)) := by
          rw [List.getElem?_take_of_lt (by omega), h1]
        rw [hws, List.getElem?_map] at h2
        cases hw : ws[i]? with
        | none => simp [hw] at h2
        | some w =>
          simp only [hw, Option.map_some, Option.some.injEq] at h2
          exact ⟨w, by rw [ha i x hx, h2], rfl⟩
      have hwl : ws.length = s.secretVars.length := by
        have h1 := congrArg List.length hws
        rw [List.length_take, List.length_map] at h1
        by_contra hne
        obtain ⟨x, hx⟩ : ∃ x, s.secretVars[ws.length]? = some x :=
          ⟨_, List.getElem?_eq_getElem (by omega)⟩
        obtain ⟨y, _, hy⟩ := hv _ x hx
        simp at hy
      refine ⟨fun n => .list ((ws.map fun w => w + M * n).map .int), fun n => ?_, fun hs a b hab => ?_⟩
      · refine Raised.rep s r _ _ (by rw [List.length_map, hwl]) fun i x hx => ?_
        obtain ⟨y, h1, h2⟩ := hv i x hx
        exact ⟨y, h1, by rw [List.getElem?_map, h2]; rfl⟩
      · simp only [secrets] at hs
        cases ws with
        | nil => exact (hs (List.length_eq_zero_iff.mp hwl.symm)).elim
        | cons w ws =>
          simp only [List.map_cons, Val.list.injEq, List.cons.injEq, Val.int.injEq] at hab
          exact mul_left_cancel₀ hM (add_left_cancel hab.1)
  | all sim subs c r coms ri hlen hri h ih =>
    intro ρ ha hwf
    simp only [WellFormed] at hwf
    cases ha with
    | all _ _ _ _ ri' hri' ha =>
      have hall : ∀ i : Nat, ∃ f : Int → Val E, ∀ t, subs[i]? = some t →
          (∀ n, Raised σ M t (ri i) (fun _ => n) (f n)) ∧ (secrets t ≠ [] → Function.Injective f) := by
        intro i
        cases ht : subs[i]? with
        | none => exact ⟨fun _ => .none, by simp⟩
        | some t =>
          have hi := (List.getElem?_eq_some_iff.mp ht).1
          have e1 := Except.ok.inj ((hri i hi).symm.trans (hri' i hi))
          have hcom : coms[i]? = some coms[i] := List.getElem?_eq_getElem (by omega)
          obtain ⟨f, h1⟩ := ih i t _ ht hcom ρ (e1 ▸ ha i t ht) (wellFormedL_get hwf.2 ht)
          exact ⟨f, fun t' ht' => by rw [Option.some.injEq] at ht'; exact ht' ▸ h1⟩
      choose f hf using hall
      refine ⟨fun n => .list ((List.range subs.length).map fun i => f i n), fun n => ?_, fun hs a b hab => ?_⟩
      · refine Raised.all sim subs r _ ri _ (by simp) hri fun i t r' ht hr' => ?_
        have hi := (List.getElem?_eq_some_iff.mp ht).1
        rw [List.getElem?_map, List.getElem?_range hi, Option.map_some, Option.some.injEq] at hr'
        exact hr' ▸ (hf i t ht).1 n
      · obtain ⟨t, ht, hst⟩ := secretsL_ne (by simpa only [secrets] using hs)
        obtain ⟨i, hi⟩ := List.getElem?_of_mem ht
        have hil := (List.getElem?_eq_some_iff.mp hi).1
        simp only [Val.list.injEq] at hab
        have := congrArg (fun l => l[i]?) hab
        simp only [List.getElem?_map, List.getElem?_range hil, Option.map_some, Option.some.injEq] at this
        exact (hf i t hi).2 hst this
  | any sim subs c r rs cs coms ri hcs hrs hsum hlen hlen' hri h ih =>
    intro ρ ha hwf
    simp only [WellFormed] at hwf
    cases ha with
    | any _ _ _ rs2 _ ri' ρi hrs2 hri' ha =>
      have e2 := Except.ok.inj (hrs.symm.trans (hrs2 hwf.1))
      subst e2
      have hall : ∀ i : Nat, ∃ f : Int → Val E, ∀ t, subs[i]? = some t →
          (∀ n, Raised σ M t (ri i) (fun _ => n) (f n)) ∧ (secrets t ≠ [] → Function.Injective f) := by
        intro i
        cases ht : subs[i]? with
        | none => exact ⟨fun _ => .none, by simp⟩
        | some t =>
          have hi := (List.getElem?_eq_some_iff.mp ht).1
          have e1 := Except.ok.inj ((hri i hi).symm.trans (hri' i hi))
          have hcom : coms[i]? = some coms[i] := List.getElem?_eq_getElem (by omega)
          have hci : cs[i]? = some cs[i] := List.getElem?_eq_getElem (by omega)
          obtain ⟨f, h1⟩ := ih i t _ _ ht hcom hci (ρi i) (e1 ▸ ha i t ht) (wellFormedL_get hwf.2 ht)
          exact ⟨f, fun t' ht' => by rw [Option.some.injEq] at ht'; exact ht' ▸ h1⟩
      choose f hf using hall
      refine ⟨fun n => .tuple [.list (cs.map .int), .list ((List.range subs.length).map fun i => f i n)],
        fun n => ?_, fun hs a b hab => ?_⟩
      · refine Raised.any sim subs r rs _ (fun _ _ => n) ri cs cs _ (by simp) hcs hrs rfl
          (fun i c hc => ⟨0, by simpa using hc⟩) hri fun i t r' ht hr' => ?_
        have hi := (List.getElem?_eq_some_iff.mp ht).1
        rw [List.getElem?_map, List.getElem?_range hi, Option.map_some, Option.some.injEq] at hr'
        exact hr' ▸ (hf i t ht).1 n
      · obtain ⟨t, ht, hst⟩ := secretsL_ne (by simpa only [secrets] using hs)
        obtain ⟨i, hi⟩ := List.getElem?_of_mem ht
        have hil := (List.getElem?_eq_some_iff.mp hi).1
        simp only [Val.tuple.injEq, List.cons.injEq, Val.list.injEq, and_true, true_and] at hab
        have := congrArg (fun l => l[i]?) hab
        simp only [List.getElem?_map, List.getElem?_range hil, Option.map_some, Option.some.injEq] at this
        exact (hf i t hi).2 hst this

end Zksk
