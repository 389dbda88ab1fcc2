import Verif.Lemmas.Frame
import Verif.Props.RangeComplete

/-! # C56: values out of range -/

set_option linter.unusedSectionVars false

namespace Zksk.Props

open Spec

variable {E : Type} [AddCommGroup E] [DecidableEq E]

/-- Helper: simulating assigns to no secret. -/
theorem frame_simPrecommit {J : Store → Prop} (s : PowerTwo E) : Frame J s.simPrecommit := by
  have hd : ∀ m n, Frame J (PowerTwo.drawMany m n) := by
    intro m n
    induction n with
    | zero => exact frame_pure _
    | succ n ih => exact frame_bind (frame_draw _) fun _ => frame_bind ih fun _ => frame_pure _
  refine frame_bind (hd _ _) fun vs => ?_
  cases vs with
  | nil => exact frame_raise _
  | cons v rest => exact frame_bind (frame_liftE _) fun _ => frame_pure _

/-- **C56** Let a statement contain, anywhere, the range statement of a prover whose value is out of range.  Then
`prove()` raises, whatever the random draws: even if the range statement is a clause of a disjunction that is marked
as simulated and another clause is true.  (The value is the one after the dictionary of `prove()` has been entered;
the methods of the extended statements do not assign to it.) -/
theorem C56_out_of_range_blocks (env : Env E) (s : PowerTwo E) (t : Stmt E) (d : Dict Int) (w : World) (msg : String)
    (x : Int) (hp : s.isProver = true) (hx : (updateSecretValues w.store d).value s.x = some x)
    (hr : x < 0 ∨ 2 ^ s.numBits ≤ x) (hu : Uses s.spec t)
    (hother : ∀ sp, Uses sp t → ∀ w v w', sp.precommit w = .ok (v, w') ∨ sp.simPrecommit w = .ok (v, w') →
      w'.store.value s.x = w.store.value s.x) :
    ∃ e, prove (LeafProver E) env t d msg w = .error e := by
  cases h : prove (LeafProver E) env t d msg w with
  | error e => exact ⟨e, rfl⟩
  | ok r =>
    exfalso
    refine no_proof (J := fun σ => σ.value s.x = some x) ?_ hx ?_ hu ?_ _ h
    · intro σ hσ
      by_cases hm : s.x ∈ d.map Prod.fst
      · rw [(updateSecretValues_value d σ w.store s.x).1 hm]; exact hx
      · rw [(updateSecretValues_value d σ w.store s.x).2 hm]; exact hσ
    · intro sp hsp
      constructor
      · intro w a w' hw hrun
        show w'.store.value s.x = some x
        rw [hother sp hsp _ _ _ (.inl hrun)]; exact hw
      · intro w a w' hw hrun
        show w'.store.value s.x = some x
        rw [hother sp hsp _ _ _ (.inr hrun)]; exact hw
    · intro w hw
      constructor
      · intro r hrun
        replace hrun : s.precommit w = .ok r := hrun
        rw [PowerTwo.precommit_error hp hw hr] at hrun
        cases hrun
      · intro v w' hrun k hk
        have hw' : w'.store.value s.x = some x := by rw [hother _ hu _ _ _ (.inr hrun)]; exact hw
        replace hk : s.construct w'.store v = .ok k := hk
        unfold PowerTwo.construct PowerTwo.proverBits PowerTwo.value at hk
        simp only [hp, if_true, hw', bind_ok, decompose_error hr] at hk
        obtain ⟨_, h1, _⟩ := bind_ok_iff.mp hk
        cases h1

/-- `0 ≤ x < 4` for the secret 1, of which the value 5 is known. -/
def exFive : PowerTwo (ZMod 7) := ⟨Ex.P 1, Ex.P 1, Ex.P 3, 1, 2, true, [5, 6]⟩

/-- The disjunction of a true representation and the range statement, which is marked as simulated. -/
def exBlocked : Stmt (ZMod 7) :=
  .or false [.leaf (.dlrep ⟨Ex.P 6, [Ex.P 3], [0], [(0, 2)], false⟩),
    .leaf (.ext ⟨exFive.spec, true, .none, none, none⟩)]

/-- The hypotheses are met by `exBlocked`. -/
example : ∃ w : World, exFive.isProver = true ∧ (updateSecretValues w.store []).value exFive.x = some 5 ∧
    (2 : Int) ^ exFive.numBits ≤ 5 ∧ Uses exFive.spec exBlocked ∧
    ∀ sp, Uses sp exBlocked → ∀ w v w', sp.precommit w = .ok (v, w') ∨ sp.simPrecommit w = .ok (v, w') →
      w'.store.value exFive.x = w.store.value exFive.x := by
  refine ⟨⟨⟨exNeStore.name, fun y => if y = 1 then some 5 else some 2⟩, fun _ => 3⟩, rfl, rfl, by decide,
    ⟨_, rfl, .any _ _ _ (List.mem_cons_of_mem _ (List.mem_cons_self ..)) .leaf⟩, ?_⟩
  rintro sp ⟨e, rfl, he⟩ w v w' hrun
  cases he with
  | any _ _ t ht hl =>
    simp only [List.mem_cons, List.not_mem_nil, or_false] at ht
    rcases ht with rfl | rfl
    · cases hl
    · cases hl
      rcases hrun with h | h
      · exact (Prod.mk.inj (PowerTwo.precommit_frame (s := exFive) h 1 (by decide))).2
      · exact frame_simPrecommit (J := fun σ => σ.value exFive.x = w.store.value exFive.x) exFive _ _ _ rfl h

end Zksk.Props
