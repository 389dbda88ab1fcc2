import Verif.Lemmas.PowerTwoRun
import Verif.Props.ExtComplete
import Verif.Props.Range

/-! # C36, C39: completeness of range proofs -/

set_option linter.unusedSectionVars false

namespace Zksk.Props

open Spec

variable {E : Type} [AddCommGroup E] [DecidableEq E]

/-! ### C36 -/

/-- Helper: the profile of a single statement. -/
def powerProfile (s : PowerTwo E) : Profile E where
  reads _ y := y = s.x ∨ y = s.r ∨ y ∈ s.rands
  writes _ y := y ∈ s.rands
  occurs _ y := y ∈ s.rands

private theorem named_power {s : PowerTwo E} {name : Sec → String} (h : (s.rands.map name).Nodup) :
    Named (powerProfile s) name s.stmt := by
  rintro y z (⟨_, _, hy⟩) (⟨_, _, hz⟩) e
  exact List.inj_on_of_nodup_map h hy hz e

/-- **C36** Let `com = x G + r H` with `0 ≤ x < 2^n` and `n ≥ 2`, where `x`, `r` are the values the secrets have
after the explicit values `d` were stored, and let the randomizers not be used otherwise.  Then `prove()`
succeeds; its precommitment passes `validate()`; and a verifier with an object of its own for the same
statement accepts the proof and the interactive protocol. -/
theorem C36_complete (env : Env E) (s : PowerTwo E) (d : Dict Int) (w : World) (msg : String) (x r : Int)
    (hp : s.isProver = true) (hcom : s.com.grp = s.g.grp) (hh : s.h.grp = s.g.grp)
    (hord : s.g.grp.order ≠ 0) (htor : (s.g.grp.order : Int) • s.h.val = 0) (hn : 2 ≤ s.numBits)
    (hx : (updateSecretValues w.store d).value s.x = some x) (hx0 : 0 ≤ x) (hx1 : x < 2 ^ s.numBits)
    (hr : (updateSecretValues w.store d).value s.r = some r)
    (hv : s.com.val = x • s.g.val + r • s.h.val)
    (hd : d.Uniq (updateSecretValues w.store d))
    (hpriv : s.x ∉ s.rands ∧ s.r ∉ s.rands ∧ ∀ e ∈ d, e.1 ∉ s.rands)
    (hnames : (s.rands.map w.store.name).Nodup) :
    ∃ nizk t' w', prove (LeafProver E) env s.stmt d msg w = .ok ((nizk, t'), w') ∧
      s.validate nizk.precommitment = .ok () ∧
      ∀ (σv : Store) (s' : PowerTwo E), s'.com = s.com → s'.g = s.g → s'.h = s.h → s'.rands = s.rands →
        s'.isProver = false → (s.rands.map σv.name).Nodup →
        verify env σv s'.stmt nizk msg = .ok true ∧
        ∃ p t1 w1 w2, (PTree.getProver s.stmt d : PM (Option (StmtProver E) × Stmt E)) w =
            .ok ((some p, t1), w1) ∧ sigmaProtocol env σv s'.stmt p w1 = .ok (true, w2) := by
  obtain ⟨hpx, hpr, hpd⟩ := hpriv
  have hready : Spec.Ready (powerProfile s) s.g.grp.order (updateSecretValues w.store d) d PowerTwo.valid
      s.stmt := by
    refine ⟨.leaf _ ⟨.inr ?_, fun y hy => .inr (.inr hy)⟩, .leaf _ ?_, .leaf _ ?_, .leaf _, .leaf _, .leaf _, ?_, hd, ?_⟩
    · exact PowerTwo.canSimulate hcom hh hord htor hn (fun _ => ⟨x, hx, hx0, hx1⟩) _ fun y hy => hy
    · exact PowerTwo.canProve hp hcom hh hord htor hn hpx hpr hx hx0 hx1 hr
        (by rw [updateSecretValues_name]; exact hnames) hv _ (fun y hy => hy) (fun y hy => hy)
        (fun y hy => hy) (told_of_uniq hd) hpd
    · rintro y _ (⟨_, _, hy⟩)
      exact hy
    · rintro e he (⟨_, _, hy⟩)
      exact hpd e he hy
    · rintro sp s' ⟨_, hc⟩
      exact hc s' rfl
  have hleaf : ∀ s', s.stmt ≠ .leaf (.dlrep s') := by intro s'; unfold PowerTwo.stmt; simp
  obtain ⟨nizk, t', w', h1, _, _, hval, h2⟩ := C54_proofs_accepted (powerProfile s) s.g.grp.order PowerTwo.valid env
    s.stmt d w msg hleaf hready
  have hval := valid_of_made (fun sp v h => h.1) hval
  refine ⟨nizk, t', w', h1, ?_, fun σv s' e1 e2 e3 e4 e5 hnv => ?_⟩
  · obtain ⟨w1, _, s', rfl, g2, g3⟩ := ext_nizk h1
    cases hval with
    | leaf _ hl =>
      have hl' : s'.spec.validate s'.precommitment = .ok () := hl
      rw [g2, g3] at hl'
      exact hl'
  · have hvf : VerifierFor σv s'.stmt s.stmt :=
      .leaf _ _ (PowerTwo.leafFor e1 e2 e3 e4 σv (by simp [e5]) _ _ rfl rfl)
    refine ⟨(h2 σv _ hvf (named_power hnames) (named_power hnv)).1 hval, ?_⟩
    exact C54_protocol_accepts (powerProfile s) s.g.grp.order PowerTwo.valid env s.stmt d w hleaf hready
      (fun sp v h => h.1) σv _ hvf (by
        intro e he v k hk
        unfold PowerTwo.stmt at he
        cases he
        obtain ⟨_, subs, hsub⟩ := PowerTwo.toAnd s' _ _ _ hk
        exact ⟨_, _, hsub⟩) (named_power hnames) (named_power hnv)

/-- A statement about the value 3 with randomizer 4: `3·1 + 4·3 = 15 = 1` modulo 7. -/
def exThree : PowerTwo (ZMod 7) := ⟨Ex.P 1, Ex.P 1, Ex.P 3, 1, 2, true, [5, 6]⟩

/-- The hypotheses are met, with an explicit value for `x`. -/
example : ∃ (d : Dict Int) (w : World), d ≠ [] ∧ exThree.isProver = true ∧ exThree.com.grp = exThree.g.grp ∧
    exThree.h.grp = exThree.g.grp ∧ exThree.g.grp.order ≠ 0 ∧
    (exThree.g.grp.order : Int) • exThree.h.val = 0 ∧ 2 ≤ exThree.numBits ∧
    (updateSecretValues w.store d).value exThree.x = some 3 ∧ (3 : Int) < 2 ^ exThree.numBits ∧
    (updateSecretValues w.store d).value exThree.r = some 4 ∧
    exThree.com.val = (3 : Int) • exThree.g.val + (4 : Int) • exThree.h.val ∧
    d.Uniq (updateSecretValues w.store d) ∧
    (exThree.x ∉ exThree.rands ∧ exThree.r ∉ exThree.rands ∧ ∀ e ∈ d, e.1 ∉ exThree.rands) ∧
    (exThree.rands.map w.store.name).Nodup := by
  refine ⟨[(1, 3)], ⟨⟨exNeStore.name, fun y => if y = 2 then some 4 else none⟩, fun _ => 3⟩, by simp, rfl, rfl, rfl,
    by decide, by decide, by decide, rfl, by decide, rfl, by decide, ⟨rfl, trivial⟩, by decide, by decide⟩

/-- A disjunction of a representation (`6 = y·3` for the secret 0, marked as simulated) and `exThree`. -/
def exMixed : Stmt (ZMod 7) := .or false [.leaf (.dlrep ⟨Ex.P 6, [Ex.P 3], [0], [], true⟩), exThree.stmt]

/-- The object of a verifier for the same statement. -/
def exMixedV : Stmt (ZMod 7) :=
  .or false [.leaf (.dlrep ⟨Ex.P 6, [Ex.P 3], [0], [], false⟩), { exThree with isProver := false }.stmt]

private theorem exMixed_at {Q : Leaf (ZMod 7) → Sec → Prop} {y : Sec} (h : AtLeaf Q exMixed y) :
    Q (.dlrep ⟨Ex.P 6, [Ex.P 3], [0], [], true⟩) y ∨ Q (.ext ⟨exThree.spec, false, .none, none, none⟩) y := by
  cases h with
  | any _ _ t _ ht h =>
    simp only [List.mem_cons, List.not_mem_nil, or_false] at ht
    rcases ht with rfl | rfl
    · cases h with
      | leaf _ _ h => exact .inl h
    · cases h with
      | leaf _ _ h => exact .inr h

/-- The hypotheses of **C54** are met by `exMixed`, where the value of `x` is given and nothing is known of the
secret 0. -/
example : ∃ w : World, Spec.Ready (powerProfile exThree) 7 (updateSecretValues w.store [(1, 3)]) [(1, 3)] PowerTwo.valid
      exMixed ∧ Named (powerProfile exThree) w.store.name exMixed ∧ VerifierFor exNoValues exMixedV exMixed := by
  refine ⟨⟨⟨exNeStore.name, fun y => if y = 2 then some 4 else none⟩, fun _ => 3⟩,
    ⟨.any _ _ (by simp) ?_, .any _ ⟨_, List.mem_cons_of_mem _ (List.mem_cons_self ..), rfl⟩ ?_,
      .any _ _ (by simp) ?_, placed_of (fun _ h => h) _, .any _ _ ?_ ?_, .any _ _ ?_, ?_, ⟨rfl, trivial⟩, ?_⟩, ?_, ?_⟩
  · intro t ht
    simp only [List.mem_cons, List.not_mem_nil, or_false] at ht
    rcases ht with rfl | rfl
    · refine .leaf _ ⟨⟨by decide, by decide, by decide, by decide⟩, ?_, ?_⟩
      · intro x b h
        simp only [terms, List.zip_cons_cons, List.zip_nil_right, List.mem_singleton, Prod.mk.injEq] at h
        rw [h.2]; decide
      · intro x b h
        simp only [terms, List.zip_cons_cons, List.zip_nil_right, List.mem_singleton, Prod.mk.injEq] at h
        rw [h.2]; rfl
    · refine .leaf _ ⟨.inr ?_, fun y hy => .inr (.inr hy)⟩
      exact PowerTwo.canSimulate (s := exThree) rfl rfl (by decide) (by decide) (by decide)
        (fun _ => ⟨3, rfl, by decide, by decide⟩) _ fun y hy => hy
  · intro t ht hs
    simp only [List.mem_cons, List.not_mem_nil, or_false] at ht
    rcases ht with rfl | rfl
    · cases hs
    · refine .leaf _ ?_
      exact PowerTwo.canProve (s := exThree) (x := 3) (r := 4) rfl rfl rfl (by decide) (by decide) (by decide) (by decide)
        (by decide) rfl (by decide) (by decide) rfl (by decide) (by decide) _ (fun y hy => hy) (fun y hy => hy)
        (fun y hy => hy) (told_of_uniq ⟨rfl, trivial⟩) (by decide)
  · intro t ht
    simp only [List.mem_cons, List.not_mem_nil, or_false] at ht
    rcases ht with rfl | rfl
    · refine .leaf _ fun y hy hw => ?_
      rcases exMixed_at hw with h | h
      · exact h
      · exfalso
        have hy : y = 0 := by simpa [leafReads] using hy
        subst hy
        revert h
        show ¬ (0 ∈ exThree.rands)
        decide
    · refine .leaf _ fun y _ hw => ?_
      rcases exMixed_at hw with h | h
      · exact h.elim
      · exact h
  · intro t ht
    simp only [List.mem_cons, List.not_mem_nil, or_false] at ht
    rcases ht with rfl | rfl <;> exact .leaf _
  · intro i j t u x hij ht hu h1 h2
    have h0 : ∀ s, ¬ AtLeaf (leafWrites (powerProfile exThree)) (.leaf (.dlrep s)) x := by
      rintro s (⟨_, _, h⟩); exact h
    match i, j with
    | 0, _ => simp only [List.getElem?_cons_zero, Option.some.injEq] at ht; subst ht; exact h0 _ h1
    | _, 0 => simp only [List.getElem?_cons_zero, Option.some.injEq] at hu; subst hu; exact h0 _ h2
    | 1, 1 => exact hij rfl
    | i + 2, _ => simp at ht
    | _, j + 2 => simp at hu
  · intro t ht
    simp only [List.mem_cons, List.not_mem_nil, or_false] at ht
    rcases ht with rfl | rfl <;> exact .leaf _
  · intro e he h
    simp only [List.mem_singleton] at he
    subst he
    rcases exMixed_at h with h | h
    · exact h
    · revert h
      show ¬ (1 ∈ exThree.rands)
      decide
  · rintro sp s ⟨_, h⟩
    exact h s rfl
  · intro y z _ _ e
    have e := congrArg String.length e
    simpa [exNeStore] using e
  · refine .any _ _ _ _ rfl fun i t u ht hu => ?_
    match i with
    | 0 =>
      simp only [List.getElem?_cons_zero, Option.some.injEq] at ht hu
      subst ht hu
      exact .leaf _ _ ⟨rfl, rfl, rfl⟩
    | 1 =>
      simp only [List.getElem?_cons_succ, List.getElem?_cons_zero, Option.some.injEq] at ht hu
      subst ht hu
      exact .leaf _ _ (PowerTwo.leafFor (s := exThree) (s' := { exThree with isProver := false }) rfl rfl rfl rfl
        exNoValues (by simp) _ _ rfl rfl)
    | i + 2 => simp at ht

/-! ### C39 -/

/-- Helper: the profile of the two statements of a range proof; secrets before `k` are those of the caller. -/
def rangeProfile (E : Type) [AddCommGroup E] (k : Nat) : Profile E where
  reads sp y := y < k ∨ ∃ σ v t, sp.construct σ v = .ok t ∧ y ∈ secrets t
  writes sp y := ∃ σ v t, sp.construct σ v = .ok t ∧ y ∈ secrets t
  occurs sp y := ∃ σ v t, sp.construct σ v = .ok t ∧ y ∈ secrets t

/-- Helper: the profile says the right thing. -/
theorem rangeProfile_writes {s : PowerTwo E} {k : Nat} (hn : 2 ≤ s.numBits) (hx : s.isProver = true → ∃ σ : Store,
    ∃ x, σ.value s.x = some x ∧ 0 ≤ x ∧ x < 2 ^ s.numBits) {y : Sec} :
    (rangeProfile E k).writes s.spec y ↔ y ∈ s.rands := by
  constructor
  · rintro ⟨σ, v, t, h1, h2⟩
    obtain ⟨_, cs, bits, _, _, _, _, rfl⟩ := PowerTwo.construct_inv (s := s) h1
    exact PowerTwo.build_secrets y h2
  · intro hy
    obtain ⟨σ, hσ⟩ : ∃ σ : Store, s.isProver = true → ∃ x, σ.value s.x = some x ∧ 0 ≤ x ∧ x < 2 ^ s.numBits := by
      cases hp : s.isProver with
      | false => exact ⟨⟨fun _ => "", fun _ => none⟩, by simp⟩
      | true => obtain ⟨σ, h⟩ := hx hp; exact ⟨σ, fun _ => h⟩
    obtain ⟨bits, h4, h5⟩ := PowerTwo.proverBits_of hσ
    have hl : (List.replicate s.numBits s.g).length = s.numBits := by simp
    refine ⟨σ, _, _, PowerTwo.construct_of (rand := 0) hn hl
      (fun c hc => by rw [List.eq_of_mem_replicate hc]) h4 h5, ?_⟩
    simp only [secrets]
    rw [PowerTwo.mem_secretsL]
    obtain ⟨i, hi⟩ := List.mem_iff_getElem?.mp hy
    have hlen := PowerTwo.build_length (σ := σ) (s := s) s.rands _ bits hl h5
    have hi' : i < s.rands.length := (List.getElem?_eq_some_iff.mp hi).1
    have hget := List.getElem?_eq_getElem (l := PowerTwo.build σ s (List.replicate s.numBits s.g) s.rands bits)
      (i := i) (by omega)
    obtain ⟨c, r', bit, _, hr', _, ht⟩ := PowerTwo.build_get _ _ _ _ _ hget
    refine ⟨_, List.mem_of_getElem? hget, ?_⟩
    rw [ht, PowerTwo.secrets_clauses]
    rw [hi] at hr'
    cases hr'
    simp

/-- Helper: storing values that are there already. -/
theorem update_told {σ : Store} : ∀ {d : Dict Int}, Told σ d → updateSecretValues σ d = σ
  | [], _ => rfl
  | e :: d, h => by
    have h1 : σ.setValue e.1 e.2 = σ := by
      unfold Store.setValue
      cases σ with
      | mk name value =>
        simp only [Store.mk.injEq, true_and]
        funext y
        split
        · rename_i hy; rw [hy, ← h e (by simp)]
        · rfl
    show updateSecretValues (σ.setValue e.1 e.2) d = σ
    rw [h1]
    exact update_told fun e he => h e (by simp [he])

/-- Helper: facts about the parts of a range statement. -/
private theorem power_ready {σ1 : Store} {com g h : Pt E} {z r : Sec} {rands : List Sec} {k : Nat} {v rv : Int}
    (hcom : com.grp = g.grp) (hh : h.grp = g.grp) (hord : g.grp.order ≠ 0)
    (htor : (g.grp.order : Int) • h.val = 0) (hn : 2 ≤ rands.length) (hz : σ1.value z = some v)
    (hv0 : 0 ≤ v) (hv1 : v < 2 ^ rands.length) (hr : σ1.value r = some rv)
    (hc : com.val = v • g.val + rv • h.val) (hzk : z < k) (hrk : r < k) (hrands : ∀ y ∈ rands, k ≤ y)
    (hnames : (rands.map σ1.name).Nodup) {d : Dict Int} (hd : Told σ1 d) (hdk : ∀ e ∈ d, e.1 < k) :
    (CanSimulate (rangeProfile E k) g.grp.order σ1 (PowerTwo.valid (mkPowerTwo σ1 com g h z r rands).spec)
      (mkPowerTwo σ1 com g h z r rands).spec) ∧
    (CanProve (rangeProfile E k) g.grp.order σ1 d (PowerTwo.valid (mkPowerTwo σ1 com g h z r rands).spec)
      (mkPowerTwo σ1 com g h z r rands).spec) ∧
    ∀ y, (rangeProfile E k).writes (mkPowerTwo σ1 com g h z r rands).spec y ↔ y ∈ rands := by
  have hw : ∀ y, (rangeProfile E k).writes (mkPowerTwo σ1 com g h z r rands).spec y ↔ y ∈ rands :=
    fun y => rangeProfile_writes (s := mkPowerTwo σ1 com g h z r rands) hn (fun _ => ⟨σ1, v, hz, hv0, hv1⟩)
  have hz' : z ∉ rands := fun hm => absurd (hrands z hm) (Nat.not_le_of_lt hzk)
  have hr' : r ∉ rands := fun hm => absurd (hrands r hm) (Nat.not_le_of_lt hrk)
  refine ⟨?_, ?_, hw⟩
  · exact PowerTwo.canSimulate (s := mkPowerTwo σ1 com g h z r rands) hcom hh hord htor hn
      (fun _ => ⟨v, hz, hv0, hv1⟩) _ fun y hy => (hw y).mpr hy
  · refine PowerTwo.canProve (s := mkPowerTwo σ1 com g h z r rands) ?_ hcom hh hord htor hn hz' hr' hz hv0 hv1 hr
      hnames hc _ (fun y hy => (hw y).mpr hy) ?_ (fun y hy => (hw y).mpr hy) hd
      fun e he hm => absurd (hrands _ hm) (Nat.not_le_of_lt (hdk e he))
    · simp [mkPowerTwo, hz, hr]
    · rintro y (rfl | rfl | hy)
      · exact .inl hzk
      · exact .inl hrk
      · exact .inr ((hw y).mpr hy)

/-- Helper: the values given to the secrets of a range proof. -/
theorem rangeStore_values {σ : Store} {a b xv : Int} {x : Sec} {next : Nat} (hx : σ.value x = some xv) :
    (rangeStore σ a b x next (next + 1)).value next = some (xv - a) ∧
    (rangeStore σ a b x next (next + 1)).value (next + 1) = some (xv - a + rangeOffset a b) ∧
    (∀ y : Nat, y < next → (rangeStore σ a b x next (next + 1)).value y = σ.value y) := by
  unfold rangeStore
  simp only [hx, Store.setValue]
  refine ⟨?_, by simp, fun y hy => ?_⟩
  · have : (next : Nat) ≠ next + 1 := by omega
    rw [if_neg this]; simp
  · have h1 : y ≠ next := by omega
    have h2 : y ≠ next + 1 := by omega
    rw [if_neg h2, if_neg h1]

theorem rangeStore_name (σ : Store) (a b : Int) (x x1 x2 : Sec) : (rangeStore σ a b x x1 x2).name = σ.name := by
  unfold rangeStore
  cases σ.value x <;> rfl

/-- Helper: names of fresh secrets. -/
private theorem fresh_names {σ : Store} {n m : Nat} {S : List Sec}
    (h : ∀ y ∈ S, ∀ z ∈ S, σ.name y = σ.name z → y = z) (hs : ∀ y ∈ freshSecs m n, y ∈ S) :
    ((freshSecs m n).map σ.name).Nodup := by
  refine List.Nodup.map_on (fun y hy z hz e => h y (hs y hy) z (hs z hz) e) ?_
  unfold freshSecs
  exact List.Nodup.map (fun i j h => by simpa using h) List.nodup_range

private theorem too_small {y n : Nat} (h : y < n) (h' : n + 2 ≤ y) : False := by omega

/-- Helper: everything that `C54` asks for holds of what `RangeStmt` returns.  The values of the shifted secrets are in
the range. -/
theorem range_ready {σ σ1 : Store} {com g h : Pt E} {a b xv rv : Int} {x r : Sec} {next : Nat}
    {t : Stmt E} (hlarge : 3 ≤ b - a) (hax : a ≤ xv) (hxb : xv < b)
    (hx : σ.value x = some xv) (hr : σ.value r = some rv) (hc : com.val = xv • g.val + rv • h.val)
    (hord : g.grp.order ≠ 0) (htor : (g.grp.order : Int) • g.val = 0 ∧ (g.grp.order : Int) • h.val = 0)
    (hxn : x < next) (hrn : r < next)
    (hs : rangeStmt σ com g h a b x r next = .ok (σ1, t)) {d : Dict Int}
    (hd : ∀ e ∈ d, σ.value e.1 = some e.2 ∧ e.1 < next) (hdu : d.Uniq σ1)
    (hnames : ∀ y ∈ x :: r :: freshSecs (next + 2) (2 * rangeBits a b), ∀ z ∈ x :: r :: freshSecs (next + 2)
      (2 * rangeBits a b), σ.name y = σ.name z → y = z) :
    updateSecretValues σ1 d = σ1 ∧ σ1.name = σ.name ∧
    t = .and false [.leaf (.dlrep ⟨com, [g, h], [x, r], knownValues σ1 [x, r] [], false⟩),
      (mkPowerTwo σ1 ⟨g.grp, com.val - a • g.val⟩ g h next r (freshSecs (next + 2) (rangeBits a b))).stmt,
      (mkPowerTwo σ1 ⟨g.grp, com.val - a • g.val + rangeOffset a b • g.val⟩ g h (next + 1) r
        (freshSecs (next + 2 + rangeBits a b) (rangeBits a b))).stmt] ∧
    (∃ v, σ1.value next = some v ∧ 0 ≤ v ∧ v < 2 ^ rangeBits a b) ∧
    (∃ v, σ1.value (next + 1) = some v ∧ 0 ≤ v ∧ v < 2 ^ rangeBits a b) ∧
    (∀ y : Nat, AtLeaf (leafWrites (rangeProfile E (next + 2))) t y → next + 2 ≤ y) ∧
    Spec.Ready (rangeProfile E (next + 2)) g.grp.order σ1 d PowerTwo.valid t ∧
    ∀ σ' : Store, (∀ y ∈ x :: r :: freshSecs (next + 2) (2 * rangeBits a b), ∀ z ∈ x :: r ::
      freshSecs (next + 2) (2 * rangeBits a b), σ'.name y = σ'.name z → y = z) →
      Named (rangeProfile E (next + 2)) σ'.name t := by
  obtain ⟨c, com1, com2, hcg, hhg, rfl, rfl, rfl, rfl, rfl⟩ := rangeStmt_ok hs
  obtain ⟨v1, v2, v3⟩ := rangeStore_values (a := a) (b := b) (next := next) hx
  have hnm := rangeStore_name σ a b x next (next + 1)
  have hab : a < b := by omega
  have hn : 2 ≤ rangeBits a b := by
    by_contra hlt
    have := (rangeBits_lt_two hab).mp (by omega)
    omega
  have hb1 := rangeBits_bounds hab
  generalize hσ1 : rangeStore σ a b x next (next + 1) = σ1 at *
  have hr1 : σ1.value r = some rv := (v3 r hrn).trans hr
  have hx1 : σ1.value x = some xv := (v3 x hxn).trans hx
  have hdt : Told σ1 d := fun e he => (v3 e.1 (hd e he).2).trans (hd e he).1
  have hupd : updateSecretValues σ1 d = σ1 := update_told hdt
  have hfl : ∀ m, (freshSecs m (rangeBits a b)).length = rangeBits a b := by intro m; simp [freshSecs]
  have hsub1 : ∀ y ∈ freshSecs (next + 2) (rangeBits a b), y ∈ x :: r :: freshSecs (next + 2) (2 * rangeBits a b) := by
    intro y hy
    have hy' := mem_freshSecs.mp hy
    exact List.mem_cons_of_mem _ (List.mem_cons_of_mem _ (mem_freshSecs.mpr (by omega)))
  have hsub2 : ∀ y ∈ freshSecs (next + 2 + rangeBits a b) (rangeBits a b),
      y ∈ x :: r :: freshSecs (next + 2) (2 * rangeBits a b) := by
    intro y hy
    have hy' := mem_freshSecs.mp hy
    exact List.mem_cons_of_mem _ (List.mem_cons_of_mem _ (mem_freshSecs.mpr (by omega)))
  have hnames1 : ∀ y ∈ x :: r :: freshSecs (next + 2) (2 * rangeBits a b), ∀ z ∈ x :: r :: freshSecs (next + 2)
      (2 * rangeBits a b), σ1.name y = σ1.name z → y = z := by rw [hnm]; exact hnames
  have hdk : ∀ e ∈ d, e.1 < next + 2 := fun e he => Nat.lt_of_lt_of_le (hd e he).2 (by omega)
  have hz1 : (next : Nat) < next + 2 := by omega
  have hz2 : (next + 1 : Nat) < next + 2 := by omega
  obtain ⟨s1, p1, w1⟩ := power_ready (σ1 := σ1) (com := ⟨g.grp, com.val - a • g.val⟩) (g := g) (h := h) (z := next)
    (r := r) (rands := freshSecs (next + 2) (rangeBits a b)) (k := next + 2) (v := xv - a) (rv := rv)
    rfl hhg hord htor.2 (by rw [hfl]; exact hn) v1 (by omega)
    (by rw [hfl]; exact lt_of_lt_of_le (by omega : xv - a < b - a) hb1) hr1
    (by simp only [hc, sub_smul]; abel) hz1 (Nat.lt_of_lt_of_le hrn (by omega))
    (fun y hy => (mem_freshSecs.mp hy).1) (fresh_names hnames1 hsub1) hdt hdk
  obtain ⟨s2, p2, w2⟩ := power_ready (σ1 := σ1)
    (com := ⟨g.grp, com.val - a • g.val + rangeOffset a b • g.val⟩) (g := g) (h := h) (z := next + 1)
    (r := r) (rands := freshSecs (next + 2 + rangeBits a b) (rangeBits a b)) (k := next + 2)
    (v := xv - a + rangeOffset a b) (rv := rv)
    rfl hhg hord htor.2 (by rw [hfl]; exact hn) v2 (by unfold rangeOffset; omega)
    (by rw [hfl]; unfold rangeOffset; omega) hr1
    (by simp only [hc, sub_smul, add_smul]; abel) hz2 (Nat.lt_of_lt_of_le hrn (by omega))
    (fun y hy => by have := (mem_freshSecs.mp hy).1; omega) (fresh_names hnames1 hsub2) hdt hdk
  generalize hP1 : mkPowerTwo σ1 ⟨g.grp, com.val - a • g.val⟩ g h next r (freshSecs (next + 2) (rangeBits a b)) =
    P1 at *
  generalize hP2 : mkPowerTwo σ1 ⟨g.grp, com.val - a • g.val + rangeOffset a b • g.val⟩ g h (next + 1) r
    (freshSecs (next + 2 + rangeBits a b) (rangeBits a b)) = P2 at *
  have hread : ∀ y, leafReads (rangeProfile E (next + 2)) (.dlrep ⟨com, [g, h], [x, r], knownValues σ1 [x, r] [],
      false⟩) y → y < next := by
    have hxr : ∀ y, y ∈ [x, r] → y < next := by
      intro y hy
      simp only [List.mem_cons, List.not_mem_nil, or_false] at hy
      rcases hy with rfl | rfl
      · exact hxn
      · exact hrn
    rintro y (hy | hy)
    · exact hxr y hy
    · obtain ⟨e, he, rfl⟩ := List.mem_map.mp hy
      rcases knownValues_keys σ1 _ _ e he with hk | hk
      · exact hxr _ hk
      · simp at hk
  have hmem : ∀ (Q : Leaf E → Sec → Prop) (y : Sec), AtLeaf Q (.and false [.leaf (.dlrep ⟨com, [g, h], [x, r],
      knownValues σ1 [x, r] [], false⟩), P1.stmt, P2.stmt]) y ↔ Q (.dlrep ⟨com, [g, h], [x, r],
      knownValues σ1 [x, r] [], false⟩) y ∨ Q (.ext ⟨P1.spec, false, .none, none, none⟩) y ∨
      Q (.ext ⟨P2.spec, false, .none, none, none⟩) y := by
    intro Q y
    constructor
    · rintro (_ | ⟨_, _, t, _, ht, h⟩)
      simp only [List.mem_cons, List.not_mem_nil, or_false] at ht
      rcases ht with rfl | rfl | rfl
      · cases h with | leaf _ _ h => exact .inl h
      · cases h with | leaf _ _ h => exact .inr (.inl h)
      · cases h with | leaf _ _ h => exact .inr (.inr h)
    · rintro (h | h | h)
      · exact .all _ _ _ _ (by simp) (.leaf _ _ h)
      · exact .all _ _ P1.stmt _ (by simp) (.leaf _ _ h)
      · exact .all _ _ P2.stmt _ (by simp) (.leaf _ _ h)
  have hw : ∀ y, AtLeaf (leafWrites (rangeProfile E (next + 2))) (.and false [.leaf (.dlrep ⟨com, [g, h], [x, r],
      knownValues σ1 [x, r] [], false⟩), P1.stmt, P2.stmt]) y ↔ y ∈ freshSecs (next + 2) (rangeBits a b) ∨
      y ∈ freshSecs (next + 2 + rangeBits a b) (rangeBits a b) := by
    intro y
    rw [hmem]
    simp only [leafWrites, w1, w2, false_or]
  have hw' : ∀ y : Nat, AtLeaf (leafWrites (rangeProfile E (next + 2))) (.and false [.leaf (.dlrep ⟨com, [g, h], [x, r],
      knownValues σ1 [x, r] [], false⟩), P1.stmt, P2.stmt]) y → next + 2 ≤ y := by
    intro y hy
    rcases (hw y).mp hy with h | h
    · exact (mem_freshSecs.mp h).1
    · have := (mem_freshSecs.mp h).1; omega
  have hready : Spec.Ready (rangeProfile E (next + 2)) g.grp.order σ1 d PowerTwo.valid
      (.and false [.leaf (.dlrep ⟨com, [g, h], [x, r], knownValues σ1 [x, r] [], false⟩), P1.stmt, P2.stmt]) := by
    refine ⟨?_, ?_, ?_, placed_of (fun _ h => h) _, ?_, ?_, ?_, hdu, ?_⟩
    · refine .all _ _ (by simp) fun t ht => ?_
      simp only [List.mem_cons, List.not_mem_nil, or_false] at ht
      rcases ht with rfl | rfl | rfl
      · refine .leaf _ ⟨by simp [Solid, hcg, hhg, hord], ?_, ?_⟩
        · intro y b hy
          simp [terms] at hy
          rcases hy with ⟨_, rfl⟩ | ⟨_, rfl⟩
          · exact htor.1
          · rw [hhg]; exact htor.2
        · intro y b hy
          simp [terms] at hy
          rcases hy with ⟨_, rfl⟩ | ⟨_, rfl⟩
          · rfl
          · rw [hhg]
      · exact .leaf _ ⟨.inr s1, fun y hy => .inr hy⟩
      · exact .leaf _ ⟨.inr s2, fun y hy => .inr hy⟩
    · refine .all _ fun t ht => ?_
      simp only [List.mem_cons, List.not_mem_nil, or_false] at ht
      rcases ht with rfl | rfl | rfl
      · refine .leaf _ (satisfied_rep hdt rfl (by simp [hx1, hr1]) (.rep _ _ (by simp [hcg, hhg]) ?_))
        simp [valueOf, Store.key, hx1, hr1, hc]
      · exact .leaf _ p1
      · exact .leaf _ p2
    · refine .all _ _ (by simp) fun t ht => ?_
      simp only [List.mem_cons, List.not_mem_nil, or_false] at ht
      rcases ht with rfl | rfl | rfl
      · refine .leaf _ fun y hy hy' => ?_
        exact (too_small (hread y hy) (hw' y hy')).elim
      · refine .leaf _ fun y hy hy' => ?_
        rcases hy with hy | hy
        · exact absurd (hw' y hy') (Nat.not_le_of_lt hy)
        · exact hy
      · refine .leaf _ fun y hy hy' => ?_
        rcases hy with hy | hy
        · exact absurd (hw' y hy') (Nat.not_le_of_lt hy)
        · exact hy
    · refine .all _ _ (fun t ht => ?_) ?_
      · simp only [List.mem_cons, List.not_mem_nil, or_false] at ht
        rcases ht with rfl | rfl | rfl <;> exact .leaf _
      · have hdis : ∀ y : Sec, y ∈ freshSecs (next + 2) (rangeBits a b) →
            y ∈ freshSecs (next + 2 + rangeBits a b) (rangeBits a b) → False := by
          intro y h1 h2
          have h1 := mem_freshSecs.mp h1
          have h2 := mem_freshSecs.mp h2
          omega
        have hat : ∀ (l : Leaf E) (y : Sec), AtLeaf (leafWrites (rangeProfile E (next + 2))) (.leaf l) y →
            leafWrites (rangeProfile E (next + 2)) l y := by
          rintro l y (⟨_, _, h⟩); exact h
        intro i j t u y hij ht hu h1 h2
        match i, j with
        | 0, _ =>
          simp only [List.getElem?_cons_zero, Option.some.injEq] at ht
          subst ht
          exact hat _ _ h1
        | _, 0 =>
          simp only [List.getElem?_cons_zero, Option.some.injEq] at hu
          subst hu
          exact hat _ _ h2
        | 1, 1 => exact hij rfl
        | 2, 2 => exact hij rfl
        | 1, 2 =>
          simp at ht hu
          subst ht hu
          exact hdis y ((w1 y).mp (hat _ _ h1)) ((w2 y).mp (hat _ _ h2))
        | 2, 1 =>
          simp at ht hu
          subst ht hu
          exact hdis y ((w1 y).mp (hat _ _ h2)) ((w2 y).mp (hat _ _ h1))
        | i + 3, _ => simp at ht
        | _, j + 3 => simp at hu
    · refine .all _ _ (fun t ht => ?_) ?_
      · simp only [List.mem_cons, List.not_mem_nil, or_false] at ht
        rcases ht with rfl | rfl | rfl <;> exact .leaf _
      · intro u rest ho
        exfalso
        generalize hk : ([.leaf (.dlrep ⟨com, [g, h], [x, r], knownValues σ1 [x, r] [], false⟩), P1.stmt,
          P2.stmt] : List (Stmt E)) = ts at ho
        cases ho with
        | down _ ls t rs _ rest ho =>
          have ht : t ∈ ls ++ t :: rs := by simp
          rw [← hk] at ht
          simp only [List.mem_cons, List.not_mem_nil, or_false] at ht
          rcases ht with rfl | rfl | rfl <;> cases ho
    · intro e he hy
      exact too_small (hd e he).2 (hw' _ hy)
    · rintro sp s' ⟨_, hc⟩
      exact hc s' rfl
  have hnamed : ∀ σ' : Store, (∀ y ∈ x :: r :: freshSecs (next + 2) (2 * rangeBits a b), ∀ z ∈ x :: r ::
      freshSecs (next + 2) (2 * rangeBits a b), σ'.name y = σ'.name z → y = z) →
      Named (rangeProfile E (next + 2)) σ'.name (.and false [.leaf (.dlrep ⟨com, [g, h], [x, r],
        knownValues σ1 [x, r] [], false⟩), P1.stmt, P2.stmt]) := by
    intro σ' hσ' y z hy hz e
    have key : ∀ y, AtLeaf (leafOccurs (rangeProfile E (next + 2))) (.and false [.leaf (.dlrep ⟨com, [g, h], [x, r],
        knownValues σ1 [x, r] [], false⟩), P1.stmt, P2.stmt]) y →
        y ∈ x :: r :: freshSecs (next + 2) (2 * rangeBits a b) := by
      intro y hy
      rcases (hmem _ y).mp hy with h | h | h
      · simp only [leafOccurs, List.mem_cons, List.not_mem_nil, or_false] at h
        simp only [List.mem_cons]
        tauto
      · exact hsub1 y ((w1 y).mp h)
      · exact hsub2 y ((w2 y).mp h)
    exact hσ' y (key y hy) z (key z hz) e
  refine ⟨hupd, hnm, rfl, ⟨_, v1, by omega, lt_of_lt_of_le (by omega : xv - a < b - a) hb1⟩,
    ⟨_, v2, by unfold rangeOffset; omega, by unfold rangeOffset; omega⟩, hw', hready, hnamed⟩

/-- **C39**, positive part (missing: ranges with one or two elements, see `C39_small_ranges_fail`): for every range with at least three elements and every value in it.  Let `com = x G +
r H` with `a ≤ x < b`; `x`, `r` existed before the call of `RangeStmt`, and the secrets it makes have names of
their own.  Then for every message and all random draws, `prove()` succeeds (also when the values of secrets are
given again), and a verifier that calls `RangeStmt` itself, not knowing `r`, accepts the proof and the interactive
protocol. -/
theorem C39_larger_ranges_partial (env : Env E) (σ σ1 : Store) (com g h : Pt E) (a b xv rv : Int) (x r : Sec) (next : Nat)
    (t : Stmt E) (hlarge : 3 ≤ b - a) (hax : a ≤ xv) (hxb : xv < b)
    (hx : σ.value x = some xv) (hr : σ.value r = some rv) (hc : com.val = xv • g.val + rv • h.val)
    (hord : g.grp.order ≠ 0) (htor : (g.grp.order : Int) • g.val = 0 ∧ (g.grp.order : Int) • h.val = 0)
    (hxn : x < next) (hrn : r < next)
    (hs : rangeStmt σ com g h a b x r next = .ok (σ1, t)) (d : Dict Int) (rng : Nat → Nat) (msg : String)
    (hd : ∀ e ∈ d, σ.value e.1 = some e.2 ∧ e.1 < next) (hdu : d.Uniq σ1)
    (hnames : ∀ y ∈ x :: r :: freshSecs (next + 2) (2 * rangeBits a b), ∀ z ∈ x :: r :: freshSecs (next + 2)
      (2 * rangeBits a b), σ.name y = σ.name z → y = z) :
    ∃ nizk t' w', prove (LeafProver E) env t d msg ⟨σ1, rng⟩ = .ok ((nizk, t'), w') ∧
      ∀ (σv σv1 : Store) (tv : Stmt E), rangeStmt σv com g h a b x r next = .ok (σv1, tv) →
        σv.value r = none →
        (∀ y ∈ x :: r :: freshSecs (next + 2) (2 * rangeBits a b), ∀ z ∈ x :: r :: freshSecs (next + 2)
          (2 * rangeBits a b), σv.name y = σv.name z → y = z) →
        verify env σv1 tv nizk msg = .ok true ∧
        ∃ p t1 w1 w2, (PTree.getProver t d : PM (Option (StmtProver E) × Stmt E)) ⟨σ1, rng⟩ =
            .ok ((some p, t1), w1) ∧ sigmaProtocol env σv1 tv p w1 = .ok (true, w2) := by
  obtain ⟨hupd, hnm, rfl, _, _, _, hready, hnamed⟩ := range_ready hlarge hax hxb hx hr hc hord htor hxn hrn hs hd hdu hnames
  have hnames1 : ∀ y ∈ x :: r :: freshSecs (next + 2) (2 * rangeBits a b), ∀ z ∈ x :: r :: freshSecs (next + 2)
      (2 * rangeBits a b), σ1.name y = σ1.name z → y = z := by rw [hnm]; exact hnames
  generalize hP1 : mkPowerTwo σ1 ⟨g.grp, com.val - a • g.val⟩ g h next r (freshSecs (next + 2) (rangeBits a b)) =
    P1 at *
  generalize hP2 : mkPowerTwo σ1 ⟨g.grp, com.val - a • g.val + rangeOffset a b • g.val⟩ g h (next + 1) r
    (freshSecs (next + 2 + rangeBits a b) (rangeBits a b)) = P2 at *
  have hready' : Spec.Ready (rangeProfile E (next + 2)) g.grp.order
      (updateSecretValues (World.mk σ1 rng).store d) d PowerTwo.valid
      (.and false [.leaf (.dlrep ⟨com, [g, h], [x, r], knownValues σ1 [x, r] [], false⟩), P1.stmt, P2.stmt]) := by
    show Spec.Ready _ _ (updateSecretValues σ1 d) _ _ _
    rw [hupd]; exact hready
  obtain ⟨nizk, t', w', h1, _, _, hval, h2⟩ := C54_proofs_accepted (rangeProfile E (next + 2)) g.grp.order
    PowerTwo.valid env _ d ⟨σ1, rng⟩ msg (by simp) hready'
  refine ⟨nizk, t', w', h1, fun σv σv1 tv hsv hrv hnv => ?_⟩
  obtain ⟨c', com1, com2, _, _, rfl, rfl, rfl, rfl, rfl⟩ := rangeStmt_ok hsv
  have hnmv := rangeStore_name σv a b x next (next + 1)
  have hrv' : (rangeStore σv a b x next (next + 1)).value r = none := by
    cases hxv : σv.value x with
    | none => unfold rangeStore; simp only [hxv]; exact hrv
    | some n => rw [(rangeStore_values hxv).2.2 r hrn]; exact hrv
  generalize rangeStore σv a b x next (next + 1) = σv1 at *
  have hvf : VerifierFor σv1 (.and false [.leaf (.dlrep ⟨com, [g, h], [x, r], knownValues σv1 [x, r] [], false⟩),
      (mkPowerTwo σv1 ⟨g.grp, com.val - a • g.val⟩ g h next r (freshSecs (next + 2) (rangeBits a b))).stmt,
      (mkPowerTwo σv1 ⟨g.grp, com.val - a • g.val + rangeOffset a b • g.val⟩ g h (next + 1) r
        (freshSecs (next + 2 + rangeBits a b) (rangeBits a b))).stmt])
      (.and false [.leaf (.dlrep ⟨com, [g, h], [x, r], knownValues σ1 [x, r] [], false⟩), P1.stmt, P2.stmt]) := by
    refine .all _ _ _ _ rfl fun i t u ht hu => ?_
    match i with
    | 0 =>
      simp only [List.getElem?_cons_zero, Option.some.injEq] at ht hu
      subst ht hu
      exact .leaf _ _ ⟨rfl, rfl, rfl⟩
    | 1 =>
      simp only [List.getElem?_cons_succ, List.getElem?_cons_zero, Option.some.injEq] at ht hu
      subst ht hu
      refine .leaf _ _ (PowerTwo.leafFor (s := P1) ?_ ?_ ?_ ?_ σv1 ?_ _ _ rfl rfl) <;>
        simp [← hP1, mkPowerTwo, hrv']
    | 2 =>
      simp only [List.getElem?_cons_succ, List.getElem?_cons_zero, Option.some.injEq] at ht hu
      subst ht hu
      refine .leaf _ _ (PowerTwo.leafFor (s := P2) ?_ ?_ ?_ ?_ σv1 ?_ _ _ rfl rfl) <;>
        simp [← hP2, mkPowerTwo, hrv']
    | i + 3 => simp at ht
  have hnv1 := hnamed σv1 (by rw [hnmv]; exact hnv)
  refine ⟨(h2 σv1 _ hvf (hnamed σ1 hnames1) hnv1).1 (valid_of_made (fun sp v h => h.1) hval), ?_⟩
  exact C54_protocol_accepts (rangeProfile E (next + 2)) g.grp.order PowerTwo.valid env _ d ⟨σ1, rng⟩ (by simp)
    hready' (fun sp v h => h.1) σv1 _ hvf (by simp) (hnamed σ1 hnames1) hnv1

/-- The hypotheses are met: `1 = 2·1 + 2·3` in `ℤ/7ℤ`, and 2 is in `[0, 4)`. -/
example : ∃ t tv, rangeStmt exNeStore (Ex.P 1) (Ex.P 1) (Ex.P 3) 0 4 0 1 2 = .ok (rangeStore exNeStore 0 4 0 2 3, t) ∧
    rangeStmt exNoValues (Ex.P 1) (Ex.P 1) (Ex.P 3) 0 4 0 1 2 = .ok (rangeStore exNoValues 0 4 0 2 3, tv) ∧
    exNeStore.value 0 = some 2 ∧ exNeStore.value 1 = some 2 ∧ exNoValues.value 1 = none ∧
    (Ex.P 1).val = (2 : Int) • (Ex.P 1).val + (2 : Int) • (Ex.P 3).val ∧
    ((Ex.P 1).grp.order : Int) • (Ex.P 1).val = 0 ∧ ((Ex.P 1).grp.order : Int) • (Ex.P 3).val = 0 ∧
    (∀ e ∈ ([(0, 2)] : Dict Int), exNeStore.value e.1 = some e.2 ∧ e.1 < 2) ∧
    Dict.Uniq (rangeStore exNeStore 0 4 0 2 3) ([(0, 2)] : Dict Int) ∧
    (∀ y ∈ 0 :: 1 :: freshSecs (2 + 2) (2 * rangeBits 0 4), ∀ z ∈ 0 :: 1 :: freshSecs (2 + 2) (2 * rangeBits 0 4),
      exNeStore.name y = exNeStore.name z → y = z) := by
  obtain ⟨t, ht⟩ := rangeStmt_exists (σ := exNeStore) (com := Ex.P 1) (g := Ex.P 1) (h := Ex.P 3) (a := 0) (b := 4)
    (x := 0) (r := 1) (next := 2) rfl rfl
  obtain ⟨tv, htv⟩ := rangeStmt_exists (σ := exNoValues) (com := Ex.P 1) (g := Ex.P 1) (h := Ex.P 3) (a := 0)
    (b := 4) (x := 0) (r := 1) (next := 2) rfl rfl
  refine ⟨t, tv, ht, htv, rfl, rfl, rfl, by decide, by decide, by decide, by decide, ⟨rfl, trivial⟩, ?_⟩
  intro y _ z _ e
  have e := congrArg String.length e
  simpa [exNeStore] using e

end Zksk.Props
