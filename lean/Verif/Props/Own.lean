import Verif.Lemmas.OwnLib
import Verif.Props.Library
import Verif.Props.NotEqualComplete
import Verif.Props.RangeComplete

/-!
# Secret objects of the verifier's own (C72)

Prover and verifier are different processes, each of which makes its own `Secret` objects.  The verifier's decision
does not depend on which objects these are, but only on their names and on the values they happen to have; and so every
verifier who writes down the same statement accepts the honest proofs.
-/

set_option linter.unusedSectionVars false

namespace Zksk.Props

open Spec

variable {E : Type} [AddCommGroup E] [DecidableEq E]

/-- **C72** Let `tv` be the same statement as `t` with secret objects `ρ x` instead of `x`, where `ρ` need not be
injective.  Then `verify()` does the same on both, for every proof and message: the same verdict, or the same exception;
the secrets `x` being seen with the values of `ρ x`, and with their names or others that an injective `f` makes of
them. -/
theorem C72_verify (ρ : Sec → Sec) (f : String → String) (hf : Function.Injective f) (env : Env E) (σv : Store)
    (tv t : Stmt E) (h : Alike (LeafOwn ρ f σv) tv t) (nizk : NIZK E) (msg : String) :
    verify env σv tv nizk msg = verify env (seenThrough ρ f σv) t nizk msg :=
  own_verify (own_leaf ρ hf σv) hf env (own_fresh h) nizk msg

/-- **C72** The same for the check of simulated transcripts. -/
theorem C72_simulation (ρ : Sec → Sec) (f : String → String) (hf : Function.Injective f) (env : Env E) (σv : Store)
    (tv t : Stmt E) (h : Alike (LeafOwn ρ f σv) tv t) (tr : Sim E) (hash : List UInt8) :
    verifySimulationConsistency env σv tv tr hash = verifySimulationConsistency env (seenThrough ρ f σv) t tr hash :=
  own_simulation (own_leaf ρ hf σv) hf env (own_fresh h) tr hash

/-- **C72** The same for the interactive protocol, with every prover, honest or not. -/
theorem C72_protocol (ρ : Sec → Sec) (f : String → String) (hf : Function.Injective f) (env : Env E) (σv : Store)
    (tv t : Stmt E) (h : Alike (LeafOwn ρ f σv) tv t) (p : StmtProver E) :
    sigmaProtocol env σv tv p = sigmaProtocol env (seenThrough ρ f σv) t p :=
  own_sigma (own_leaf ρ hf σv) hf (own_gate ρ f σv) env (own_fresh h) p

/-- **C72** In particular `DLNotEqual` objects for the same points, with secrets of one's own, are the same for a
verifier. -/
theorem C72_not_equal (ρ : Sec → Sec) (f : String → String) (hf : Function.Injective f) (env : Env E) (σv : Store) (s s' : NotEqual E)
    (h0 : s'.lhs0 = s.lhs0) (h1 : s'.lhs1 = s.lhs1) (hg : s'.g = s.g) (hh : s'.h = s.h) (hbind : s'.bind = s.bind)
    (hx : s'.x = ρ s.x) (hα : s'.alpha = ρ s.alpha) (hβ : s'.beta = ρ s.beta) (nizk : NIZK E) (msg : String) :
    verify env σv s'.stmt nizk msg = verify env (seenThrough ρ f σv) s.stmt nizk msg :=
  C72_verify ρ f hf env σv _ _ (.leaf _ _ (NotEqual.ownObject σv h0 h1 hg hh hbind hx hα hβ)) nizk msg

/-- **C72** And `PowerTwoRangeStmt` objects, made by somebody who does not know the values. -/
theorem C72_power_two (ρ : Sec → Sec) (f : String → String) (hf : Function.Injective f) (env : Env E) (σv : Store) (s s' : PowerTwo E) (hcom : s'.com = s.com)
    (hg : s'.g = s.g) (hh : s'.h = s.h) (hr : s'.rands = s.rands.map ρ) (hv' : s'.isProver = false)
    (hv : s.isProver = false) (nizk : NIZK E) (msg : String) :
    verify env σv s'.stmt nizk msg = verify env (seenThrough ρ f σv) s.stmt nizk msg :=
  C72_verify ρ f hf env σv _ _ (.leaf _ _ (PowerTwo.ownObject σv hcom hg hh hr hv' hv)) nizk msg

/-- **C72** And `BBSPlusSignatureStmt` objects for the same key, with whatever signature. -/
theorem C72_signature (ρ : Sec → Sec) (f : String → String) (hf : Function.Injective f) (env : Env E) (σv : Store) (s s' : BBS E) (gen gen' : E) (hP : s'.P = s.P)
    (hpk : s'.pk = s.pk) (hvars : s'.vars = s.vars.map ρ) (h1 : s'.r1 = ρ s.r1) (h2 : s'.r2 = ρ s.r2)
    (hd1 : s'.delta1 = ρ s.delta1) (hd2 : s'.delta2 = ρ s.delta2) (nizk : NIZK E) (msg : String) :
    verify env σv (s'.stmt gen' false) nizk msg = verify env (seenThrough ρ f σv) (s.stmt gen false) nizk msg :=
  C72_verify ρ f hf env σv _ _ (.leaf _ _ (BBS.ownObject σv gen gen' hP hpk hvars h1 h2 hd1 hd2)) nizk msg

/-- Helper. -/
theorem libOwn_self {f : String → String} {l : Leaf E} (σ : Store) (h : LibOwn id l l) : LeafOwn id f σ l l := by
  have gen : ∀ a b : Leaf E, a = b → LibOwn id a b → LeafOwn id f σ a a := by
    intro a b e h
    cases h with
    | rep a b h => exact ⟨rfl, rfl, by simp⟩
    | notEqual s s' a b ha =>
      subst ha
      exact NotEqual.ownObject σ rfl rfl rfl rfl rfl rfl rfl rfl
    | range s s' a b ha hb hcom hg hh hr hv =>
      subst ha
      exact PowerTwo.ownObject σ rfl rfl rfl (by simp) hv hv
    | bbs s s' gen gen' a b ha =>
      subst ha
      exact BBS.ownObject σ gen' gen' rfl rfl (by simp) rfl rfl rfl rfl
  exact gen l l rfl h

/-- **C08**, **C72** For a verifier's objects of the library, composed in any way: injective renaming of the secrets does
not change what `verify()` does, for any proof. -/
theorem C72_renaming (f : String → String) (hf : Function.Injective f) (env : Env E) (σ : Store) (t : Stmt E)
    (h : EveryLeaf (fun l => LibOwn id l l) t) (nizk : NIZK E) (msg : String) :
    verify env { σ with name := fun s => f (σ.name s) } t nizk msg = verify env σ t nizk msg := by
  refine (C72_verify id f hf env σ t t ?_ nizk msg).symm
  induction h with
  | leaf l h => exact .leaf _ _ (libOwn_self σ h)
  | all b subs _ _ ih =>
    refine .all _ _ _ _ rfl fun i t u h1 h2 => ?_
    rw [h1] at h2; cases h2
    exact ih t (List.mem_of_getElem? h1)
  | any b subs _ _ ih =>
    refine .any _ _ _ _ rfl fun i t u h1 h2 => ?_
    rw [h1] at h2; cases h2
    exact ih t (List.mem_of_getElem? h1)

/-- Helper: leaf by leaf, a verifier's object is one with the prover's secrets, renamed. -/
theorem libOwn_through {q : Nat} {σ : Store} {d : Dict Int} {Priv : Sec → Prop} {ρ : Sec → Sec} (σv : Store) {a b : Leaf E}
    (h : LibOwn ρ a b) (hl : LibLeaf q σ d Priv false b) :
    ∃ c, LeafFor (seenThrough ρ id σv) c b ∧ LeafOwn ρ id σv a c := by
  cases h with
  | rep a b h =>
    exact ⟨.dlrep b, ⟨rfl, rfl, rfl⟩, h⟩
  | notEqual s s' a b ha hb h0 h1 hg hh hbind hx hα hβ =>
    obtain ⟨sp, f, v, k, k'⟩ := b
    simp only at hb
    subst hb; subst ha
    refine ⟨.ext ⟨s.spec, false, .none, none, none⟩, ?_, NotEqual.ownObject σv h0 h1 hg hh hbind hx hα hβ⟩
    cases NotEqual.verifierFor (s := s) (seenThrough ρ id σv) false .none none none f v k k' with
    | leaf _ _ h => exact h
  | range s s' a b ha hb hcom hg hh hr hv =>
    obtain ⟨sp, f, v, k, k'⟩ := b
    simp only at hb
    subst hb; subst ha
    refine ⟨.ext ⟨({ s with isProver := false } : PowerTwo E).spec, false, .none, none, none⟩, ?_, ?_⟩
    · exact PowerTwo.leafFor (s := s) (s' := { s with isProver := false }) rfl rfl rfl rfl _ (by simp) _ _ rfl rfl
    · exact PowerTwo.ownObject (s := { s with isProver := false }) σv hcom hg hh hr hv rfl
  | bbs s s' gen gen' a b ha hb hP hpk hvars h1 h2 hd1 hd2 =>
    obtain ⟨sp, f, v, k, k'⟩ := b
    simp only at hb
    subst hb; subst ha
    refine ⟨.ext ⟨s.spec gen, false, .none, none, none⟩, ?_, BBS.ownObject σv gen gen' hP hpk hvars h1 h2 hd1 hd2⟩
    have key : ∀ (P : Pairing E) (s2 : BBS E) (gen2 : E), s.spec gen = s2.spec gen2 → s2.P = P → GoodKey P s2.pk →
        LeafFor (seenThrough ρ id σv) (.ext ⟨s.spec gen, false, .none, none, none⟩) (.ext ⟨s.spec gen, f, v, k, k'⟩) := by
      intro P s2 gen2 e hP2 hk2
      rw [e]
      exact BBS.leafFor hP2 hk2 gen2 gen2 _ s2.signature ..
    cases hl with
    | notEqual s2 _ ha => exact absurd (congrArg ExtSpec.cls ha) (show ¬ "BBSPlusSignatureStmt" = "DLNotEqual" by decide)
    | range s2 _ ha =>
      exact absurd (congrArg ExtSpec.cls ha) (show ¬ "BBSPlusSignatureStmt" = "PowerTwoRangeStmt" by decide)
    | signature P s2 gen2 _ ha _ _ hP2 hk2 => exact key P s2 gen2 ha hP2 hk2

/-- Helper: the same for compositions. -/
theorem own_through {q : Nat} {σ : Store} {d : Dict Int} {Priv : Sec → Prop} {ρ : Sec → Sec} (σv : Store) {tv t : Stmt E}
    (h : Alike (LibOwn ρ) tv t) (hall : EveryLeaf (LibLeaf q σ d Priv false) t) :
    ∃ t1, VerifierFor (seenThrough ρ id σv) t1 t ∧ Alike (LeafOwn ρ id σv) tv t1 := by
  have lists : ∀ {ts us : List (Stmt E)}, List.Forall₂ (fun tv t => EveryLeaf (LibLeaf q σ d Priv false) t →
      ∃ t1, VerifierFor (seenThrough ρ id σv) t1 t ∧ Alike (LeafOwn ρ id σv) tv t1) ts us →
      (∀ t ∈ us, EveryLeaf (LibLeaf q σ d Priv false) t) →
      ∃ rs, List.Forall₂ (VerifierFor (seenThrough ρ id σv)) rs us ∧ List.Forall₂ (Alike (LeafOwn ρ id σv)) ts rs := by
    intro ts us h
    induction h with
    | nil => intro _; exact ⟨[], .nil, .nil⟩
    | cons h _ ih =>
      intro hu
      obtain ⟨t1, e1, e2⟩ := h (hu _ (by simp))
      obtain ⟨rs, e3, e4⟩ := ih fun t ht => hu t (by simp [ht])
      exact ⟨t1 :: rs, .cons e1 e3, .cons e2 e4⟩
  induction h with
  | leaf a b h =>
    cases hall with
    | leaf _ hl =>
      obtain ⟨c, e1, e2⟩ := libOwn_through σv h hl
      exact ⟨.leaf c, .leaf _ _ e1, .leaf _ _ e2⟩
  | all b b' ts us hl _ ih =>
    cases hall with
    | all _ _ _ hu =>
      obtain ⟨rs, e1, e2⟩ := lists (forall₂_of_get hl ih) hu
      obtain ⟨f1, f2⟩ := get_of_forall₂ e1
      obtain ⟨f3, f4⟩ := get_of_forall₂ e2
      exact ⟨.and b' rs, .all _ _ _ _ f1 f2, .all _ _ _ _ f3 f4⟩
  | any b b' ts us hl _ ih =>
    cases hall with
    | any _ _ _ hu =>
      obtain ⟨rs, e1, e2⟩ := lists (forall₂_of_get hl ih) hu
      obtain ⟨f1, f2⟩ := get_of_forall₂ e1
      obtain ⟨f3, f4⟩ := get_of_forall₂ e2
      exact ⟨.or b' rs, .any _ _ _ _ f1 f2, .any _ _ _ _ f3 f4⟩

/-- **C72** Honest proofs about any composition of the statements of the library, as in `C66_complete`, are accepted by
every verifier who makes the statement out of objects of its own: the same points and keys, but secrets `ρ x` in the
place of `x`.  Different secrets have different names, for the prover and for the verifier, which need not be the same
names. -/
theorem C72_complete (q : Nat) (Priv : Sec → Prop) (env : Env E) (t : Stmt E) (d : Dict Int) (w : World) (msg : String)
    (ht : ∀ s, t ≠ .leaf (.dlrep s)) (hall : EveryLeaf (LibLeaf q (updateSecretValues w.store d) d Priv false) t)
    (hproved : ProvedLeaf (LibLeaf q (updateSecretValues w.store d) d Priv true) t)
    (hsep : Separate (libProfile Priv) t) (htidy : Tidy (libProfile Priv) w.store.name t)
    (hd : d.Uniq (updateSecretValues w.store d)) (hda : ∀ e ∈ d, ¬ Priv e.1)
    (hna : Named (libProfile Priv) w.store.name t) :
    ∃ nizk t' w', prove (LeafProver E) env t d msg w = .ok ((nizk, t'), w') ∧
      ∀ (ρ : Sec → Sec) (σv : Store) (tv : Stmt E), Alike (LibOwn ρ) tv t →
        Named (libProfile Priv) (fun x => σv.name (ρ x)) t →
        verify env σv tv nizk msg = .ok true ∨
          (∃ s : NotEqual E, Uses s.spec t) ∧ verify env σv tv nizk msg = .error .validation := by
  obtain ⟨nizk, t', w', h1, _, h2⟩ := C66_complete q Priv env t d w msg ht hall hproved hsep htidy hd hda
  refine ⟨nizk, t', w', h1, fun ρ σv tv ho hnv => ?_⟩
  obtain ⟨t1, e1, e2⟩ := own_through σv ho hall
  rw [C72_verify ρ id Function.injective_id env σv tv t1 e2]
  exact h2 _ t1 e1 hna hnv

/-- **C72** The same for the interactive protocol, without inequality proofs. -/
theorem C72_complete_protocol (q : Nat) (Priv : Sec → Prop) (env : Env E) (t : Stmt E) (d : Dict Int) (w : World)
    (ht : ∀ l, t ≠ .leaf l) (hall : EveryLeaf (LibLeaf q (updateSecretValues w.store d) d Priv false) t)
    (hproved : ProvedLeaf (LibLeaf q (updateSecretValues w.store d) d Priv true) t)
    (hsep : Separate (libProfile Priv) t) (htidy : Tidy (libProfile Priv) w.store.name t)
    (hd : d.Uniq (updateSecretValues w.store d)) (hda : ∀ e ∈ d, ¬ Priv e.1)
    (hne : ∀ s : NotEqual E, ¬ Uses s.spec t) (hna : Named (libProfile Priv) w.store.name t)
    (ρ : Sec → Sec) (σv : Store) (tv : Stmt E) (ho : Alike (LibOwn ρ) tv t)
    (hnv : Named (libProfile Priv) (fun x => σv.name (ρ x)) t) :
    ∃ p t' w1 w2, (PTree.getProver t d : PM (Option (StmtProver E) × Stmt E)) w = .ok ((some p, t'), w1) ∧
      sigmaProtocol env σv tv p w1 = .ok (true, w2) := by
  obtain ⟨t1, e1, e2⟩ := own_through σv ho hall
  obtain ⟨p, t', w1, w2, h1, h2⟩ := C66_protocol q Priv env t d w ht hall hproved hsep htidy hd hda hne _ t1 e1 hna hnv
  exact ⟨p, t', w1, w2, h1, by rw [C72_protocol ρ id Function.injective_id env σv tv t1 e2]; exact h2⟩

/-- The object of a verifier for `exLib`, with the secrets 10 to 16. -/
def exLibOwn : Stmt (ZMod 7) :=
  .or false [.leaf (.dlrep ⟨Ex.P 6, [Ex.P 3], [10], [], false⟩),
    .and false [({ exLibNe with x := 11, alpha := 13, beta := 14 } : NotEqual (ZMod 7)).stmt,
      ({ exThree with x := 11, r := 12, rands := exThree.rands.map (· + 10), isProver := false } : PowerTwo (ZMod 7)).stmt]]

/-- It meets the conditions on verifiers in `C72_complete`; those on `exLib` are met, see the example beside
`C66_complete`. -/
example : Alike (LibOwn (· + 10)) exLibOwn exLib ∧
    Named (libProfile exLibPriv) (fun x => exNoValues.name (x + 10)) exLib := by
  refine ⟨.any _ _ _ _ rfl fun i t u ht hu => ?_, fun x y _ _ h => ?_⟩
  · match i with
    | 0 =>
      simp only [List.getElem?_cons_zero, Option.some.injEq] at ht hu
      subst ht hu
      exact .leaf _ _ (.rep _ _ ⟨rfl, rfl, rfl⟩)
    | 1 =>
      simp only [List.getElem?_cons_succ, List.getElem?_cons_zero, Option.some.injEq] at ht hu
      subst ht hu
      refine .all _ _ _ _ rfl fun i t u ht hu => ?_
      match i with
      | 0 =>
        simp only [List.getElem?_cons_zero, Option.some.injEq] at ht hu
        subst ht hu
        exact .leaf _ _ (.notEqual exLibNe _ _ _ rfl rfl rfl rfl rfl rfl rfl rfl rfl rfl)
      | 1 =>
        simp only [List.getElem?_cons_succ, List.getElem?_cons_zero, Option.some.injEq] at ht hu
        subst ht hu
        exact .leaf _ _ (.range exThree _ _ _ rfl rfl rfl rfl rfl rfl rfl)
      | i + 2 => simp at ht
    | i + 2 => simp at ht
  · have := congrArg String.length h
    simpa [exNoValues, exNeStore] using this

/-- It meets the conditions of `C72_renaming`, too. -/
example : EveryLeaf (fun l => LibOwn id l l) exLibOwn := by
  refine .any _ _ (by simp) fun t ht => ?_
  simp only [List.mem_cons, List.not_mem_nil, or_false] at ht
  rcases ht with rfl | rfl
  · exact .leaf _ (.rep _ _ ⟨rfl, rfl, rfl⟩)
  · refine .all _ _ (by simp) fun t ht => ?_
    simp only [List.mem_cons, List.not_mem_nil, or_false] at ht
    rcases ht with rfl | rfl
    · exact .leaf _ (.notEqual _ _ _ _ rfl rfl rfl rfl rfl rfl rfl rfl rfl rfl)
    · exact .leaf _ (.range _ _ _ _ rfl rfl rfl rfl rfl rfl rfl)

/-- Helper: where the verifier's secrets are, when the secrets `x`, `r` and those made by `RangeStmt` are replaced. -/
def moved (r next x' r' next' y : Nat) : Nat :=
  if next ≤ y then next' + (y - next) else if y = r then r' else x'

/-- Helper. -/
theorem moved_new {r next x' r' next' : Nat} (hx : x' < next') (hr : r' < next') (k y : Nat) :
    moved r next x' r' next' y = next' + k ↔ y = next + k := by
  unfold moved
  split
  · omega
  · split <;> omega

/-- Helper. -/
theorem moved_new' (r next x' r' next' k : Nat) : moved r next x' r' next' (next + k) = next' + k := by
  unfold moved
  rw [if_pos (by omega)]
  omega

/-- Helper. -/
theorem moved_inj {x r next x' r' next' y z : Nat} (hxn : x < next) (hrn : r < next) (hxr : x ≠ r) (hx : x' < next')
    (hr : r' < next') (hxr' : x' ≠ r') (hy : y = x ∨ y = r ∨ next ≤ y) (hz : z = x ∨ z = r ∨ next ≤ z)
    (h : moved r next x' r' next' y = moved r next x' r' next' z) : y = z := by
  unfold moved at h
  split_ifs at h <;> omega

/-- Helper: the store after the verifier's call, seen with the prover's addresses. -/
theorem rangeStore_moved {x r x' r' : Sec} {next next' : Nat} (hx : x < next) (hxr : x ≠ r)
    (hx' : x' < next') (hr' : r' < next') (σv : Store) (a b : Int) :
    seenThrough (moved r next x' r' next') id (rangeStore σv a b x' next' (next' + 1)) =
      rangeStore (seenThrough (moved r next x' r' next') id σv) a b x next (next + 1) := by
  have hmx : moved r next x' r' next' x = x' := by
    unfold moved; rw [if_neg (Nat.not_le_of_lt hx), if_neg hxr]
  have hiff := fun k y => moved_new (next := next) (r := r) hx' hr' k y
  unfold rangeStore
  show seenThrough _ _ (match σv.value x' with
    | none => σv
    | some v => _) = _
  have hv : (seenThrough (moved r next x' r' next') id σv).value x = σv.value x' := by
    show σv.value (moved r next x' r' next' x) = _
    rw [hmx]
  rw [hv]
  cases σv.value x' with
  | none => rfl
  | some v =>
    simp only [seenThrough, Store.setValue, Store.mk.injEq, true_and]
    funext y
    have h0 := hiff 0 y
    have h1 := hiff 1 y
    simp only [Nat.add_zero] at h0
    simp only [h0, h1]

/-- Helper: the secrets made by the two calls. -/
theorem freshSecs_moved (r next x' r' next' k n : Nat) :
    freshSecs (next' + k) n = (freshSecs (next + k) n).map (moved r next x' r' next') := by
  unfold freshSecs
  rw [List.map_map]
  refine List.map_congr_left fun i _ => ?_
  have := moved_new' r next x' r' next' (k + i)
  simp only [Function.comp, Nat.add_assoc] at this ⊢
  exact this.symm

/-- **C72** Ranges with at least three elements, as in `C39_larger_ranges_partial`: the verifier calls `RangeStmt` with its own secrets `x'`, `r'`, not knowing `r'`, and gets other new secrets than the prover. -/
theorem C72_larger_ranges (env : Env E) (σ σ1 : Store) (com g h : Pt E) (a b xv rv : Int) (x r : Sec) (next : Nat)
    (t : Stmt E) (hlarge : 3 ≤ b - a) (hax : a ≤ xv) (hxb : xv < b)
    (hx : σ.value x = some xv) (hr : σ.value r = some rv) (hc : com.val = xv • g.val + rv • h.val)
    (hord : g.grp.order ≠ 0) (htor : (g.grp.order : Int) • g.val = 0 ∧ (g.grp.order : Int) • h.val = 0)
    (hxn : x < next) (hrn : r < next) (hxr : x ≠ r)
    (hs : rangeStmt σ com g h a b x r next = .ok (σ1, t)) (d : Dict Int) (rng : Nat → Nat) (msg : String)
    (hd : ∀ e ∈ d, σ.value e.1 = some e.2 ∧ e.1 < next) (hdu : d.Uniq σ1)
    (hnames : ∀ y ∈ x :: r :: freshSecs (next + 2) (2 * rangeBits a b), ∀ z ∈ x :: r :: freshSecs (next + 2)
      (2 * rangeBits a b), σ.name y = σ.name z → y = z) :
    ∃ nizk t' w', prove (LeafProver E) env t d msg ⟨σ1, rng⟩ = .ok ((nizk, t'), w') ∧
      ∀ (σv σv1 : Store) (tv : Stmt E) (x' r' : Sec) (next' : Nat), x' < next' → r' < next' → x' ≠ r' →
        rangeStmt σv com g h a b x' r' next' = .ok (σv1, tv) → σv.value r' = none →
        (∀ y ∈ x' :: r' :: freshSecs (next' + 2) (2 * rangeBits a b), ∀ z ∈ x' :: r' :: freshSecs (next' + 2)
          (2 * rangeBits a b), σv.name y = σv.name z → y = z) →
        verify env σv1 tv nizk msg = .ok true ∧
        ∃ p t1 w1 w2, (PTree.getProver t d : PM (Option (StmtProver E) × Stmt E)) ⟨σ1, rng⟩ =
            .ok ((some p, t1), w1) ∧ sigmaProtocol env σv1 tv p w1 = .ok (true, w2) := by
  obtain ⟨nizk, t', w', h1, h2⟩ := C39_larger_ranges_partial env σ σ1 com g h a b xv rv x r next t hlarge hax hxb hx hr
    hc hord htor hxn hrn hs d rng msg hd hdu hnames
  refine ⟨nizk, t', w', h1, fun σv σv1 tv x' r' next' hx' hr' hxr' hsv hrv hnv => ?_⟩
  obtain ⟨c, com1, com2, hcg, hhg, rfl, rfl, rfl, rfl, rfl⟩ := rangeStmt_ok hsv
  obtain ⟨t1, ht1⟩ := rangeStmt_exists (σ := seenThrough (moved r next x' r' next') id σv) (a := a) (b := b) (x := x) (r := r)
    (next := next) hcg hhg
  have hmx : moved r next x' r' next' x = x' := by
    unfold moved; rw [if_neg (Nat.not_le_of_lt hxn), if_neg hxr]
  have hmr : moved r next x' r' next' r = r' := by
    unfold moved; rw [if_neg (Nat.not_le_of_lt hrn), if_pos rfl]
  have hrv' : (seenThrough (moved r next x' r' next') id σv).value r = none := by
    show σv.value (moved r next x' r' next' r) = none
    rw [hmr]; exact hrv
  have hnames' : ∀ y ∈ x :: r :: freshSecs (next + 2) (2 * rangeBits a b), ∀ z ∈ x :: r :: freshSecs (next + 2)
      (2 * rangeBits a b), (seenThrough (moved r next x' r' next') id σv).name y =
        (seenThrough (moved r next x' r' next') id σv).name z → y = z := by
    intro y hy z hz e
    have hin : ∀ y ∈ x :: r :: freshSecs (next + 2) (2 * rangeBits a b),
        moved r next x' r' next' y ∈ x' :: r' :: freshSecs (next' + 2) (2 * rangeBits a b) := by
      intro y hy
      simp only [List.mem_cons] at hy ⊢
      rcases hy with rfl | rfl | hy
      · exact .inl hmx
      · exact .inr (.inl hmr)
      · refine .inr (.inr ?_)
        rw [freshSecs_moved r next x' r' next']
        exact List.mem_map_of_mem hy
    have e' := hnv _ (hin y hy) _ (hin z hz) e
    have hcase : ∀ y ∈ x :: r :: freshSecs (next + 2) (2 * rangeBits a b), y = x ∨ y = r ∨ next ≤ y := by
      intro y hy
      simp only [List.mem_cons] at hy
      rcases hy with h | h | h
      · exact .inl h
      · exact .inr (.inl h)
      · have := mem_freshSecs.mp h
        exact .inr (.inr (by omega))
    exact moved_inj hxn hrn hxr hx' hr' hxr' (hcase y hy) (hcase z hz) e'
  obtain ⟨k1, p, t2, w1, w2, k2, k3⟩ := h2 _ _ t1 ht1 hrv' hnames'
  have hstore := rangeStore_moved (x := x) (r := r) (x' := x') (r' := r') (next := next) (next' := next')
    hxn hxr hx' hr' σv a b
  obtain ⟨c', com1', com2', _, _, g1, rfl, rfl, rfl, rfl⟩ := rangeStmt_ok ht1
  rw [← hstore] at k1 k3
  have hrv1 : (rangeStore σv a b x' next' (next' + 1)).value r' = none := by
    cases hxv : σv.value x' with
    | none => unfold rangeStore; simp only [hxv]; exact hrv
    | some n => rw [(rangeStore_values hxv).2.2 r' hr']; exact hrv
  generalize rangeStore σv a b x' next' (next' + 1) = σv1 at *
  have hrv2 : (seenThrough (moved r next x' r' next') id σv1).value r = none := by
    show σv1.value (moved r next x' r' next' r) = none
    rw [hmr]; exact hrv1
  have hal : Alike (LeafOwn (moved r next x' r' next') id σv1)
      (.and false [.leaf (.dlrep ⟨com, [g, h], [x', r'], knownValues σv1 [x', r'] [], false⟩),
        (mkPowerTwo σv1 ⟨g.grp, com.val - a • g.val⟩ g h next' r' (freshSecs (next' + 2) (rangeBits a b))).stmt,
        (mkPowerTwo σv1 ⟨g.grp, com.val - a • g.val + rangeOffset a b • g.val⟩ g h (next' + 1) r'
          (freshSecs (next' + 2 + rangeBits a b) (rangeBits a b))).stmt])
      (.and false [.leaf (.dlrep ⟨com, [g, h], [x, r],
          knownValues (seenThrough (moved r next x' r' next') id σv1) [x, r] [], false⟩),
        (mkPowerTwo (seenThrough (moved r next x' r' next') id σv1) ⟨g.grp, com.val - a • g.val⟩ g h next r
          (freshSecs (next + 2) (rangeBits a b))).stmt,
        (mkPowerTwo (seenThrough (moved r next x' r' next') id σv1) ⟨g.grp, com.val - a • g.val + rangeOffset a b • g.val⟩ g h
          (next + 1) r (freshSecs (next + 2 + rangeBits a b) (rangeBits a b))).stmt]) := by
    refine .all _ _ _ _ rfl fun i t u ht hu => ?_
    match i with
    | 0 =>
      simp only [List.getElem?_cons_zero, Option.some.injEq] at ht hu
      subst ht hu
      exact .leaf _ _ ⟨rfl, rfl, by simp [hmx, hmr]⟩
    | 1 =>
      simp only [List.getElem?_cons_succ, List.getElem?_cons_zero, Option.some.injEq] at ht hu
      subst ht hu
      refine .leaf _ _ (PowerTwo.ownObject σv1 rfl rfl rfl ?_ ?_ ?_)
      · exact freshSecs_moved ..
      · simp [mkPowerTwo, hrv1]
      · simp [mkPowerTwo, hrv2]
    | 2 =>
      simp only [List.getElem?_cons_succ, List.getElem?_cons_zero, Option.some.injEq] at ht hu
      subst ht hu
      refine .leaf _ _ (PowerTwo.ownObject σv1 rfl rfl rfl ?_ ?_ ?_)
      · show freshSecs (next' + 2 + rangeBits a b) _ = (freshSecs (next + 2 + rangeBits a b) _).map _
        rw [Nat.add_assoc, Nat.add_assoc]
        exact freshSecs_moved ..
      · simp [mkPowerTwo, hrv1]
      · simp [mkPowerTwo, hrv2]
    | i + 3 => simp at ht
  refine ⟨?_, p, t2, w1, w2, k2, ?_⟩
  · rw [C72_verify _ id Function.injective_id env σv1 _ _ hal]; exact k1
  · rw [C72_protocol _ id Function.injective_id env σv1 _ _ hal]; exact k3

/-- The conditions on verifiers are met, also by one who makes secrets 5 and 6 before calling `RangeStmt`; for the others
see the example beside `C39_larger_ranges_partial`. -/
example : ∃ tv, rangeStmt exNoValues (Ex.P 1) (Ex.P 1) (Ex.P 3) 0 4 5 6 7 = .ok (rangeStore exNoValues 0 4 5 7 8, tv) ∧
    exNoValues.value 6 = none ∧
    (∀ y ∈ 5 :: 6 :: freshSecs (7 + 2) (2 * rangeBits 0 4), ∀ z ∈ 5 :: 6 :: freshSecs (7 + 2) (2 * rangeBits 0 4),
      exNoValues.name y = exNoValues.name z → y = z) := by
  obtain ⟨tv, htv⟩ := rangeStmt_exists (σ := exNoValues) (com := Ex.P 1) (g := Ex.P 1) (h := Ex.P 3) (a := 0)
    (b := 4) (x := 5) (r := 6) (next := 7) rfl rfl
  refine ⟨tv, htv, rfl, ?_⟩
  intro y _ z _ e
  have e := congrArg String.length e
  simpa [exNoValues, exNeStore] using e

end Zksk.Props
