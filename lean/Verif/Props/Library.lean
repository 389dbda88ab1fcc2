import Verif.Props.SimStmt

/-! # C66: completeness of all compositions of the statements of the library -/

set_option linter.unusedSectionVars false

namespace Zksk.Props

open Spec

variable {E : Type} [AddCommGroup E] [DecidableEq E]

/-- Secrets of the statements that an extended statement constructs.  Those of them that are in `Priv`, the secrets
made by extended statements for themselves, are what it writes. -/
def libProfile (Priv : Sec → Prop) : Profile E where
  occurs sp y := ∃ σ v k, sp.construct σ v = .ok k ∧ y ∈ secrets k
  writes sp y := Priv y ∧ ∃ σ v k, sp.construct σ v = .ok k ∧ y ∈ secrets k
  reads sp y := ¬ Priv y ∨ ∃ σ v k, sp.construct σ v = .ok k ∧ y ∈ secrets k

/-- The statements of the library, over groups of order `q`, in the heap `σ` of the prover and with the explicit values
`d`.  `Priv` has the secrets made by `DLNotEqual`, `PowerTwoRangeStmt` and `BBSPlusSignatureStmt` for themselves and no
others.  If `proved`, the prover knows what the statement is about:
* a representation is satisfied by the values of its secrets,
* for `DLNotEqual`, the value of `x` is the first logarithm,
* for `PowerTwoRangeStmt`, the values of `x` and `r` open the commitment, and `x` is in the range,
* for `BBSPlusSignatureStmt`, there is a signature that verifies on the values of the secrets.

Whether or not it is proved, a range statement made by somebody with a value for `x` needs a value in the range, see
C56. -/
inductive LibLeaf (q : Nat) (σ : Store) (d : Dict Int) (Priv : Sec → Prop) (proved : Bool) : Leaf E → Prop
  | rep (s : DLRep E) (h : Solid (.leaf s)) (h' : Torsion (.leaf s)) (hq : OneOrder q (.leaf s))
      (hpriv : ∀ x, x ∈ s.secretVars ∨ x ∈ s.secretValues.map Prod.fst → ¬ Priv x)
      (htrue : proved = true → Satisfied σ d valueOf (.leaf s)) : LibLeaf q σ d Priv proved (.dlrep s)
  | notEqual (s : NotEqual E) (a : Ext E) (ha : a.spec = s.spec) (hq : s.g.grp.order = q) (h0 : q ≠ 0)
      (hgrp : ∀ p ∈ [s.lhs0, s.lhs1, s.h, s.gen], p.grp = s.g.grp)
      (htor : ∀ p ∈ [s.g, s.lhs0, s.h, s.lhs1], (q : Int) • p.val = 0)
      (hpriv : Priv s.alpha ∧ Priv s.beta ∧ ¬ Priv s.x) (hab : s.alpha ≠ s.beta)
      (htrue : proved = true → ∃ x, σ.value s.x = some x ∧ s.lhs0.val = x • s.g.val) :
      LibLeaf q σ d Priv proved (.ext a)
  | range (s : PowerTwo E) (a : Ext E) (ha : a.spec = s.spec) (hq : s.g.grp.order = q) (h0 : q ≠ 0)
      (hgrp : s.com.grp = s.g.grp ∧ s.h.grp = s.g.grp) (htor : (q : Int) • s.h.val = 0) (hn : 2 ≤ s.numBits)
      (hpriv : (∀ y ∈ s.rands, Priv y) ∧ ¬ Priv s.x ∧ ¬ Priv s.r) (hnames : (s.rands.map σ.name).Nodup)
      (hin : s.isProver = true → ∃ x, σ.value s.x = some x ∧ 0 ≤ x ∧ x < 2 ^ s.numBits)
      (htrue : proved = true → s.isProver = true ∧ ∃ x r, σ.value s.x = some x ∧ σ.value s.r = some r ∧
        s.com.val = x • s.g.val + r • s.h.val) : LibLeaf q σ d Priv proved (.ext a)
  | signature (P : Pairing E) (s : BBS E) (gen : E) (a : Ext E) (ha : a.spec = s.spec gen) (hq : P.order = q) (h0 : q ≠ 0)
      (hP : s.P = P) (hk : GoodKey P s.pk) (htor : ∀ g ∈ s.pk.generators, (q : Int) • g.val = 0)
      (hh0 : (q : Int) • s.pk.h0.val = 0) (h3 : 3 ≤ s.vars.length) (hfit : s.vars.length ≤ s.pk.generators.length)
      (hpriv : (∀ y ∈ [s.r1, s.r2, s.delta1, s.delta2], Priv y) ∧ ∀ y ∈ s.vars, ¬ Priv y)
      (hnd : [s.r1, s.r2, s.delta1, s.delta2].Nodup)
      (htrue : proved = true → ∃ sig ms, s.signature = some sig ∧ sig.verify P s.pk ms = .ok true ∧
        s.vars.map σ.value = (sig.e :: sig.s :: ms).map some) : LibLeaf q σ d Priv proved (.ext a)

/-- Helper: precommitments are not strings, and `validate()` accepts them; or refuses, if `N`. -/
def libZ (N : Prop) (sp : ExtSpec E) (v : Val E) : Prop :=
  (∀ s, v ≠ .str s) ∧ (sp.validate v = .ok () ∨ N ∧ sp.validate v = .error .validation)

/-- Helper: less can be said about simulated precommitments. -/
theorem canSimulate_mono {F : Profile E} {q : Nat} {σ : Store} {Z Z' : Val E → Prop} {sp : ExtSpec E}
    (hz : ∀ v, Z v → Z' v) (h : CanSimulate F q σ Z sp) : CanSimulate F q σ Z' sp := by
  intro w hw
  obtain ⟨v, w', k, h1, h2, h3, h4, h5, h6, h7, h8⟩ := h w hw
  exact ⟨v, w', k, h1, h2, h3, h4, h5, h6, h7, hz _ h8⟩

/-- Helper: less can be said about precommitments. -/
theorem canProve_mono {F : Profile E} {q : Nat} {σ : Store} {d : Dict Int} {Z Z' : Val E → Prop} {sp : ExtSpec E}
    (hz : ∀ v, Z v → Z' v) (h : CanProve F q σ d Z sp) : CanProve F q σ d Z' sp := by
  intro w hw
  obtain ⟨v, w', k, h1, h2, h3, h4, h5, h6, h7, h8, h9, h10, h11, h12, h13⟩ := h w hw
  exact ⟨v, w', k, h1, h2, h3, h4, h5, h6, h7, h8, h9, h10, h11, h12, hz _ h13⟩

/-! ### The secrets of the statements of the library -/

/-- Helper: which secrets occur in inequality proofs. -/
theorem occurs_notEqual {s : NotEqual E} {q : Nat} (hq : s.g.grp.order = q) (h0 : q ≠ 0)
    (hgrp : ∀ p ∈ [s.lhs0, s.lhs1, s.h, s.gen], p.grp = s.g.grp) (Priv : Sec → Prop) (y : Sec) :
    (libProfile (E := E) Priv).occurs s.spec y ↔ y = s.alpha ∨ y = s.beta ∨ s.bind = true ∧ y = s.x := by
  have e : ∀ σ c, y ∈ secrets (s.built σ c) ↔ y = s.alpha ∨ y = s.beta ∨ s.bind = true ∧ y = s.x := by
    intro σ c
    unfold NotEqual.built
    cases hb : s.bind <;> simp [secrets, secretsL] <;> tauto
  have hg1 : s.lhs0.grp = s.g.grp := hgrp _ (by simp)
  have hg2 : s.lhs1.grp = s.h.grp := by rw [hgrp s.lhs1 (by simp), hgrp s.h (by simp)]
  constructor
  · rintro ⟨σ, v, k, h1, h2⟩
    have h1' : s.construct σ v = .ok k := h1
    obtain ⟨c, _, _, rfl, _⟩ := NotEqual.construct_inv h1'
    rw [NotEqual.construct_of hg1 hg2] at h1'
    cases h1'
    exact (e σ c).mp h2
  · intro h
    exact ⟨⟨fun _ => "", fun _ => none⟩, .pt s.g, _, NotEqual.construct_of hg1 hg2 _ _, (e _ _).mpr h⟩

/-- Helper: which secrets occur in range proofs. -/
theorem occurs_range {s : PowerTwo E} (hn : 2 ≤ s.numBits) {σ : Store}
    (hx : s.isProver = true → ∃ x, σ.value s.x = some x ∧ 0 ≤ x ∧ x < 2 ^ s.numBits) (Priv : Sec → Prop) (y : Sec) :
    (libProfile (E := E) Priv).occurs s.spec y ↔ y ∈ s.rands :=
  rangeProfile_writes (k := 0) hn fun hp => ⟨σ, hx hp⟩

/-- Helper: which secrets occur in proofs of signatures. -/
theorem occurs_signature {P : Pairing E} {s : BBS E} (hP : s.P = P) (hk : GoodKey P s.pk) (h3 : 3 ≤ s.vars.length)
    (hfit : s.vars.length ≤ s.pk.generators.length) (gen : E) (Priv : Sec → Prop) (y : Sec) :
    (libProfile (E := E) Priv).occurs (s.spec gen) y ↔ y ∈ [s.r1, s.r2, s.delta1, s.delta2] ∨ y ∈ s.vars := by
  constructor
  · rintro ⟨σ, v, k, h1, h2⟩
    have h1' : s.construct σ v = .ok k := h1
    obtain ⟨a1, a2, g0, g1, g2, gs, ve, vs, vm, _, _, _, hv, _, _, _, _, rfl⟩ := BBS.construct_inv hP hk h1'
    exact BBS.built_secrets (P := P) hv y h2
  · intro h
    obtain ⟨g0, g1, g2, gs, hg⟩ : ∃ g0 g1 g2 gs, s.pk.generators = g0 :: g1 :: g2 :: gs := by
      match h : s.pk.generators with
      | [] => rw [h] at hfit; simp only [List.length_nil] at hfit; omega
      | [_] => rw [h] at hfit; simp only [List.length_cons, List.length_nil] at hfit; omega
      | [_, _] => rw [h] at hfit; simp only [List.length_cons, List.length_nil] at hfit; omega
      | g0 :: g1 :: g2 :: gs => exact ⟨_, _, _, _, rfl⟩
    obtain ⟨ve, vs, vm, hv⟩ : ∃ ve vs vm, s.vars = ve :: vs :: vm := by
      match h : s.vars with
      | [] => simp [h] at h3
      | [_] => simp [h] at h3
      | ve :: vs :: vm => exact ⟨_, _, _, rfl⟩
    have k0 : g0.grp = P.G1 := hk.g1 g0 (by rw [hg]; simp)
    have hvm : 1 ≤ vm.length := by rw [hv] at h3; simpa using h3
    have hl : vm.length ≤ gs.length + 1 := by rw [hv, hg] at hfit; simpa using hfit
    refine ⟨⟨fun _ => "", fun _ => none⟩, .dict [("A1", .pt g0), ("A2", .pt g0)], _,
      BBS.construct_of hP hk rfl rfl hg hv hvm hl k0 k0, ?_⟩
    rw [hv] at h
    simp only [BBS.parts, secrets, secretsL, List.append_nil, List.mem_append, List.mem_cons, List.not_mem_nil,
      or_false] at h ⊢
    tauto

section
variable {q : Nat} {σ : Store} {d : Dict Int} {Priv : Sec → Prop}

/-- Helper: every leaf is sound. -/
theorem lib_sound {N : Prop} {b : Bool} {l : Leaf E} (h : LibLeaf q σ d Priv b l)
    (hN : ∀ (a : Ext E) (s : NotEqual E), l = .ext a → a.spec = s.spec → N) :
    LeafSound (libProfile Priv) q σ (libZ N) l := by
  cases h with
  | rep s h h' hq _ _ => exact ⟨h, h', hq⟩
  | notEqual s a ha hq h0 hgrp htor hpriv hab _ =>
    refine ⟨.inr ?_, fun x hx => .inr hx⟩
    have hn := hN a s rfl ha
    rw [ha]
    subst hq
    refine canSimulate_mono ?_ (NotEqual.canSimulate' (fun p hp => hgrp p (by simp at hp ⊢; tauto)) (hgrp _ (by simp)) h0
      (libProfile Priv) (fun σ c y hy => ⟨σ, .pt c, _, NotEqual.construct_of (hgrp _ (by simp))
        (by rw [hgrp s.lhs1 (by simp), hgrp s.h (by simp)]) σ c, hy⟩) σ)
    rintro _ ⟨c, rfl⟩
    refine ⟨fun _ h => (by cases h), ?_⟩
    show s.validate _ = _ ∨ N ∧ s.validate _ = _
    unfold NotEqual.validate
    split <;> simp [hn]
  | range s a ha hq h0 hgrp htor hn hpriv hnames hin _ =>
    refine ⟨.inr ?_, fun x hx => .inr hx⟩
    rw [ha]
    subst hq
    exact canSimulate_mono (fun v hv => ⟨hv.2, .inl hv.1⟩) (PowerTwo.canSimulate hgrp.1 hgrp.2 h0 htor hn hin _
      fun y hy => (occurs_range hn hin Priv y).mpr hy)
  | signature P s gen a ha hq h0 hP hk htor hh0 h3 hfit hpriv hnd _ =>
    refine ⟨.inr ?_, fun x hx => .inr hx⟩
    rw [ha]
    subst hq
    refine canSimulate_mono ?_ (BBS.canSimulate hP hk h0 h3 hfit gen _
      (fun y hy => (occurs_signature hP hk h3 hfit gen Priv y).mpr hy) σ)
    rintro _ ⟨⟨c, rfl⟩, h⟩
    exact ⟨fun _ h => (by cases h), .inl h⟩

/-- Helper: what is to be proved is true. -/
theorem lib_true {N : Prop} {l : Leaf E} (h : LibLeaf q σ d Priv true l)
    (hN : ∀ (a : Ext E) (s : NotEqual E), l = .ext a → a.spec = s.spec → N)
    (hd : Told σ d) (hda : ∀ e ∈ d, ¬ Priv e.1) : LeafTrue (libProfile Priv) q σ d (libZ N) l := by
  cases h with
  | rep s h h' hq _ ht => exact ht rfl
  | notEqual s a ha hq h0 hgrp htor hpriv hab ht =>
    have hn := hN a s rfl ha
    have hocc := occurs_notEqual hq h0 hgrp Priv
    obtain ⟨x, hx, hx0⟩ := ht rfl
    show CanProve _ _ _ _ _ a.spec
    rw [ha]
    subst hq
    have p1 : s.x ≠ s.alpha := fun e => hpriv.2.2 (e ▸ hpriv.1)
    have p2 : s.x ≠ s.beta := fun e => hpriv.2.2 (e ▸ hpriv.2.1)
    refine canProve_mono ?_ (NotEqual.canProve' (fun p hp => hgrp p (by simp at hp ⊢; tauto)) h0 htor hab ⟨p1, p2⟩ hx hx0
      (libProfile Priv) (fun σ c y hy => ⟨σ, .pt c, _, NotEqual.construct_of (hgrp _ (by simp))
        (by rw [hgrp s.lhs1 (by simp), hgrp s.h (by simp)]) σ c, hy⟩) ?_ ?_ hd
      fun e he => ⟨fun h => hda e he (h ▸ hpriv.1), fun h => hda e he (h ▸ hpriv.2.1)⟩)
    · rintro _ ⟨c, rfl⟩
      refine ⟨fun _ h => (by cases h), ?_⟩
      show s.validate _ = _ ∨ N ∧ s.validate _ = _
      unfold NotEqual.validate
      split <;> simp [hn]
    · rintro y (rfl | rfl | rfl)
      · exact .inr ((hocc _).mpr (.inl rfl))
      · exact .inr ((hocc _).mpr (.inr (.inl rfl)))
      · exact .inl hpriv.2.2
    · rintro y (rfl | rfl)
      · exact ⟨hpriv.1, (hocc _).mpr (.inl rfl)⟩
      · exact ⟨hpriv.2.1, (hocc _).mpr (.inr (.inl rfl))⟩
  | range s a ha hq h0 hgrp htor hn hpriv hnames hin ht =>
    have hocc := occurs_range hn hin Priv
    obtain ⟨hp, x, r, hx, hr, hv⟩ := ht rfl
    obtain ⟨x', hx', g0, g1⟩ := hin hp
    obtain rfl : x = x' := Option.some.inj (hx.symm.trans hx')
    show CanProve _ _ _ _ _ a.spec
    rw [ha]
    subst hq
    refine canProve_mono (fun v hv => ⟨hv.2, .inl hv.1⟩) (PowerTwo.canProve hp hgrp.1 hgrp.2 h0 htor hn
      (fun h => hpriv.2.1 (hpriv.1 _ h)) (fun h => hpriv.2.2 (hpriv.1 _ h)) hx g0 g1 hr hnames hv (libProfile Priv)
      (fun y hy => (hocc y).mpr hy) ?_ (fun y hy => ⟨hpriv.1 y hy, (hocc y).mpr hy⟩) hd
      fun e he h => hda e he (hpriv.1 _ h))
    rintro y (rfl | rfl | hy)
    · exact .inl hpriv.2.1
    · exact .inl hpriv.2.2
    · exact .inr ((hocc y).mpr hy)
  | signature P s gen a ha hq h0 hP hk htor hh0 h3 hfit hpriv hnd ht =>
    have hocc := occurs_signature hP hk h3 hfit gen Priv
    obtain ⟨sig, ms, hsig, hver, hvals⟩ := ht rfl
    have hlen : s.vars.length = ms.length + 2 := by simpa using congrArg List.length hvals
    show CanProve _ _ _ _ _ a.spec
    rw [ha]
    subst hq
    refine canProve_mono ?_ (BBS.canProve hP hk h0 htor hh0 hsig (by rintro rfl; simp at hlen; omega) (by omega) hver hvals
      hnd (fun y hy hy' => hpriv.2 y hy' (hpriv.1 y hy)) gen (libProfile Priv) (fun y hy => (hocc y).mpr hy)
      (fun y hy => .inr ((hocc y).mpr hy)) (fun y hy => ⟨hpriv.1 y hy, (hocc y).mpr (.inl hy)⟩) hd
      fun e he h => hda e he (hpriv.1 _ h))
    rintro _ ⟨⟨c, rfl⟩, h⟩
    exact ⟨fun _ h => (by cases h), .inl h⟩

/-- Helper: only private secrets are written. -/
theorem priv_of_writes {t : Stmt E} {x : Sec} (hw : AtLeaf (leafWrites (libProfile Priv)) t x) : Priv x := by
  induction hw with
  | leaf l x h =>
    cases l with
    | dlrep s => exact h.elim
    | ext s => exact h.1
  | all _ _ _ _ _ _ ih => exact ih
  | any _ _ _ _ _ _ ih => exact ih

/-- Helper: no leaf depends on secrets written by others. -/
theorem lib_own {t : Stmt E} {b : Bool} {l : Leaf E} (h : LibLeaf q σ d Priv b l) (x : Sec)
    (hr : leafReads (libProfile Priv) l x) (hw : AtLeaf (leafWrites (libProfile Priv)) t x) :
    leafWrites (libProfile Priv) l x := by
  have hp : Priv x := priv_of_writes hw
  cases h with
  | rep s _ _ _ hpriv _ => exact (hpriv x hr hp).elim
  | notEqual s a => exact hr.elim (fun h => (h hp).elim) fun h => ⟨hp, h⟩
  | range s a => exact hr.elim (fun h => (h hp).elim) fun h => ⟨hp, h⟩
  | signature P s gen a => exact hr.elim (fun h => (h hp).elim) fun h => ⟨hp, h⟩

end

/-- Helper. -/
theorem every_mono {Q Q' : Leaf E → Prop} {t : Stmt E} (h : EveryLeaf Q t)
    (hi : ∀ l, HasLeaf l t → Q l → Q' l) : EveryLeaf Q' t := by
  induction h with
  | leaf l h => exact .leaf l (hi l .leaf h)
  | all b subs hne _ ih => exact .all b subs hne fun t ht => ih t ht fun l hl => hi l (.all b subs t ht hl)
  | any b subs hne _ ih => exact .any b subs hne fun t ht => ih t ht fun l hl => hi l (.any b subs t ht hl)

/-- Helper. -/
theorem proved_mono {Q Q' : Leaf E → Prop} {t : Stmt E} (h : ProvedLeaf Q t)
    (hi : ∀ l, HasLeaf l t → Q l → Q' l) : ProvedLeaf Q' t := by
  induction h with
  | leaf l h => exact .leaf l (hi l .leaf h)
  | all subs _ ih => exact .all subs fun t ht => ih t ht fun l hl => hi l (.all _ subs t ht hl)
  | any subs hex _ ih => exact .any subs hex fun t ht hs => ih t ht hs fun l hl => hi l (.any _ subs t ht hl)

/-- Helper: the verdict of `validate()` on the whole. -/
theorem fullValidate_lib {N : Prop} {t : Stmt E} (h : EveryLeaf (LeafMade (libZ N)) t) :
    Tree.fullValidate t = .ok () ∨ N ∧ Tree.fullValidate t = .error .validation := by
  have list : ∀ ts : List (Stmt E), (∀ t ∈ ts, Tree.fullValidate t = .ok () ∨
      N ∧ Tree.fullValidate t = .error .validation) →
      Tree.fullValidateL ts = .ok () ∨ N ∧ Tree.fullValidateL ts = .error .validation := by
    intro ts
    induction ts with
    | nil => intro _; exact .inl rfl
    | cons t ts ih =>
      intro h
      simp only [Tree.fullValidateL]
      rcases h t (by simp) with e | ⟨hN, e⟩
      · rw [e, bind_ok]
        exact ih fun t ht => h t (by simp [ht])
      · rw [e]; exact .inr ⟨hN, rfl⟩
  induction h with
  | leaf l h =>
    cases l with
    | dlrep s => exact .inl rfl
    | ext s => exact h.2
  | all b subs hne _ ih => simp only [Tree.fullValidate]; exact list subs ih
  | any b subs hne _ ih => simp only [Tree.fullValidate]; exact list subs ih

/-- Helper: if the whole is valid, so are the parts. -/
theorem valid_of_full {Q : Leaf E → Prop} {t : Stmt E} (h : EveryLeaf Q t) (hv : Tree.fullValidate t = .ok ()) :
    EveryLeaf LeafValid t := by
  induction h with
  | leaf l h =>
    cases l with
    | dlrep s => exact .leaf _ trivial
    | ext s => exact .leaf _ hv
  | all b subs hne _ ih => exact .all b subs hne fun t ht => ih t ht (validL_of subs hv t ht)
  | any b subs hne _ ih => exact .any b subs hne fun t ht => ih t ht (validL_of subs hv t ht)

/-- Helper: all that is needed for an honest run. -/
theorem ready_lib {q : Nat} {σ : Store} {d : Dict Int} {Priv : Sec → Prop} {t : Stmt E} {N : Prop}
    (hN : ∀ s : NotEqual E, Uses s.spec t → N) (hall : EveryLeaf (LibLeaf q σ d Priv false) t)
    (hproved : ProvedLeaf (LibLeaf q σ d Priv true) t) (hsep : Separate (libProfile Priv) t)
    (htidy : Tidy (libProfile Priv) σ.name t) (hd : d.Uniq σ) (hda : ∀ e ∈ d, ¬ Priv e.1) (ht : Told σ d) :
    Spec.Ready (libProfile Priv) q σ d (libZ N) t where
  sound := every_mono hall fun l hl h => lib_sound h fun a s e ha => hN s ⟨a, ha, e ▸ hl⟩
  holds := proved_mono hproved fun l hl h => lib_true h (fun a s e ha => hN s ⟨a, ha, e ▸ hl⟩) ht hda
  own := every_mono hall fun l _ h x hr hw => lib_own h x hr hw
  placed := placed_of (fun _ h => h) t
  separate := hsep
  tidy := htidy
  args := fun e he hw => hda e he (priv_of_writes hw)
  uniq := hd
  hashable := fun sp s h => h.1 s rfl

/-- **C66** Completeness for everything that can be written with the statements of the library: let `t` be composed,
with `&` and `|`, nested in any way, of representations, inequality proofs, power-of-two range proofs and proofs of
BBS+ signatures, all over groups of one order, and let everything but the clauses marked as simulated be true for the
values the prover has.  The secrets that the statements make for themselves, `Priv`, are used in one place each.  Then
`prove()` succeeds, for every message and all random numbers, and every verifier with an object of its own for the same
statement accepts the proof; the only exception is that with inequality proofs `verify()` may raise a
`ValidationError`, namely if a blinding happens to be zero.  The prover's secrets, apart from `Priv`, are as before. -/
theorem C66_complete (q : Nat) (Priv : Sec → Prop) (env : Env E) (t : Stmt E) (d : Dict Int) (w : World) (msg : String)
    (ht : ∀ s, t ≠ .leaf (.dlrep s)) (hall : EveryLeaf (LibLeaf q (updateSecretValues w.store d) d Priv false) t)
    (hproved : ProvedLeaf (LibLeaf q (updateSecretValues w.store d) d Priv true) t)
    (hsep : Separate (libProfile Priv) t) (htidy : Tidy (libProfile Priv) w.store.name t)
    (hd : d.Uniq (updateSecretValues w.store d)) (hda : ∀ e ∈ d, ¬ Priv e.1) :
    ∃ nizk t' w', prove (LeafProver E) env t d msg w = .ok ((nizk, t'), w') ∧
      (∀ x, ¬ Priv x → w'.store.key x = (updateSecretValues w.store d).key x) ∧
      ∀ (σv : Store) (tv : Stmt E), VerifierFor σv tv t → Named (libProfile Priv) w.store.name t →
        Named (libProfile Priv) σv.name t →
        verify env σv tv nizk msg = .ok true ∨
          (∃ s : NotEqual E, Uses s.spec t) ∧ verify env σv tv nizk msg = .error .validation := by
  have htidy' : Tidy (libProfile Priv) (updateSecretValues w.store d).name t := by
    rw [updateSecretValues_name]; exact htidy
  have hr := ready_lib (N := ∃ s : NotEqual E, Uses s.spec t) (fun s hs => ⟨s, hs⟩) hall hproved hsep htidy' hd hda
    (told_of_uniq hd)
  obtain ⟨nizk, t', w', h1, _, h2, h3, h4⟩ := C54_proofs_accepted (libProfile Priv) q _ env t d w msg
    ht hr
  refine ⟨nizk, t', w', h1, fun x hx => h2 x fun hw => hx (priv_of_writes hw), fun σv tv hv hna hnv => ?_⟩
  obtain ⟨k1, k2⟩ := h4 σv tv hv hna hnv
  rcases fullValidate_lib h3 with e | ⟨hN, e⟩
  · exact .inl (k1 (valid_of_full h3 e))
  · exact .inr ⟨hN, k2 _ e⟩

/-- **C66** Without inequality proofs the verdict is always `True`, also in the interactive protocol. -/
theorem C66_protocol (q : Nat) (Priv : Sec → Prop) (env : Env E) (t : Stmt E) (d : Dict Int) (w : World)
    (ht : ∀ l, t ≠ .leaf l) (hall : EveryLeaf (LibLeaf q (updateSecretValues w.store d) d Priv false) t)
    (hproved : ProvedLeaf (LibLeaf q (updateSecretValues w.store d) d Priv true) t)
    (hsep : Separate (libProfile Priv) t) (htidy : Tidy (libProfile Priv) w.store.name t)
    (hd : d.Uniq (updateSecretValues w.store d)) (hda : ∀ e ∈ d, ¬ Priv e.1)
    (hne : ∀ s : NotEqual E, ¬ Uses s.spec t) (σv : Store) (tv : Stmt E) (hv : VerifierFor σv tv t)
    (hna : Named (libProfile Priv) w.store.name t) (hnv : Named (libProfile Priv) σv.name t) :
    ∃ p t' w1 w2, (PTree.getProver t d : PM (Option (StmtProver E) × Stmt E)) w = .ok ((some p, t'), w1) ∧
      sigmaProtocol env σv tv p w1 = .ok (true, w2) := by
  have htidy' : Tidy (libProfile Priv) (updateSecretValues w.store d).name t := by
    rw [updateSecretValues_name]; exact htidy
  have hr := ready_lib (N := False) (fun s hs => hne s hs) hall hproved hsep htidy' hd hda (told_of_uniq hd)
  refine C54_protocol_accepts (libProfile Priv) q _ env t d w (fun s => ht _) hr (fun sp v h => ?_) σv tv hv ?_ hna hnv
  · exact h.2.resolve_right fun h => h.1
  · rintro e rfl
    cases hv with
    | leaf _ b _ => exact (ht b rfl).elim

/-- `3 = x·1` and `5 ≠ x·3` in `ℤ/7ℤ`, with the internal secrets 3 and 4. -/
def exLibNe : NotEqual (ZMod 7) := ⟨Ex.P 3, Ex.P 1, Ex.P 5, Ex.P 3, Ex.P 1, 1, 3, 4, true⟩

/-- Either `6 = y·3`, marked as simulated; or `exLibNe` and `exThree`, about the same `x`. -/
def exLib : Stmt (ZMod 7) :=
  .or false [.leaf (.dlrep ⟨Ex.P 6, [Ex.P 3], [0], [], true⟩), .and false [exLibNe.stmt, exThree.stmt]]

/-- The object of a verifier. -/
def exLibV : Stmt (ZMod 7) :=
  .or false [.leaf (.dlrep ⟨Ex.P 6, [Ex.P 3], [0], [], false⟩),
    .and false [exLibNe.stmt, ({ exThree with isProver := false } : PowerTwo (ZMod 7)).stmt]]

/-- The heap of the prover, without a value for `x`. -/
def exLibStore : Store := ⟨exNeStore.name, fun y => if y = 2 then some 4 else none⟩

/-- The secrets made by the statements. -/
def exLibPriv (y : Sec) : Prop := y ∈ [3, 4, 5, 6]

private theorem exLib_writes_ne {y : Sec}
    (h : AtLeaf (leafWrites (libProfile exLibPriv)) exLibNe.stmt y) : y = 3 ∨ y = 4 := by
  cases h with
  | leaf _ _ h =>
    obtain ⟨h1, h2⟩ := h
    have := (occurs_notEqual (s := exLibNe) rfl (by decide) (by decide) exLibPriv y).mp h2
    rcases this with h | h | ⟨_, h⟩
    · exact .inl h
    · exact .inr h
    · subst h; revert h1; unfold exLibPriv; decide

private theorem exLib_writes_range {y : Sec}
    (h : AtLeaf (leafWrites (libProfile exLibPriv)) exThree.stmt y) : y = 5 ∨ y = 6 := by
  cases h with
  | leaf _ _ h =>
    obtain ⟨h1, h2⟩ := h
    have := (occurs_range (s := exThree) (σ := ⟨exNeStore.name, fun _ => some 3⟩) (by decide)
      (fun _ => ⟨3, rfl, by decide, by decide⟩) exLibPriv y).mp h2
    simpa [exThree] using this

private theorem exLib_leaf (b : Bool) : ∀ t ∈ [exLibNe.stmt, exThree.stmt], ∃ l, t = .leaf l ∧
    LibLeaf 7 (updateSecretValues exLibStore [(1, 3)]) [(1, 3)] exLibPriv b l := by
  intro t ht
  simp only [List.mem_cons, List.not_mem_nil, or_false] at ht
  rcases ht with rfl | rfl
  · refine ⟨_, rfl, .notEqual exLibNe _ rfl rfl (by decide) (by decide) (by decide) ?_ (by decide) fun _ => ⟨3, rfl, by decide⟩⟩
    unfold exLibPriv; decide
  · refine ⟨_, rfl, .range exThree _ rfl rfl (by decide) (by decide) (by decide) (by decide) ?_ (by decide)
      (fun _ => ⟨3, rfl, by decide, by decide⟩) fun _ => ⟨rfl, 3, 4, rfl, rfl, by decide⟩⟩
    unfold exLibPriv; decide

/-- The hypotheses of `C66_complete` are met by `exLib`, with an explicit value for `x`. -/
theorem exLib_meets : (∀ l, exLib ≠ .leaf l) ∧
    EveryLeaf (LibLeaf 7 (updateSecretValues exLibStore [(1, 3)]) [(1, 3)] exLibPriv false) exLib ∧
    ProvedLeaf (LibLeaf 7 (updateSecretValues exLibStore [(1, 3)]) [(1, 3)] exLibPriv true) exLib ∧
    Separate (libProfile exLibPriv) exLib ∧ Tidy (libProfile exLibPriv) exLibStore.name exLib ∧
    Dict.Uniq (updateSecretValues exLibStore [(1, 3)]) ([(1, 3)] : Dict Int) ∧ (∀ e ∈ ([(1, 3)] : Dict Int), ¬ exLibPriv e.1) ∧
    VerifierFor exNoValues exLibV exLib ∧ Named (libProfile exLibPriv) exLibStore.name exLib ∧
    Named (libProfile exLibPriv) exNoValues.name exLib := by
  have hinj : ∀ x y : Sec, exNeStore.name x = exNeStore.name y → x = y := by
    intro x y h
    have := congrArg String.length h
    simpa [exNeStore] using this
  refine ⟨fun l => by simp [exLib], .any _ _ (by simp) ?_, .any _ ⟨_, List.mem_cons_of_mem _ (List.mem_cons_self ..), rfl⟩ ?_,
    .any _ _ ?_ ?_, .any _ _ ?_, ⟨rfl, trivial⟩, (by unfold exLibPriv; decide), ?_, fun x y _ _ => hinj x y,
    fun x y _ _ => hinj x y⟩
  · intro t ht
    simp only [List.mem_cons, List.not_mem_nil, or_false] at ht
    rcases ht with rfl | rfl
    · refine .leaf _ (.rep _ ⟨by decide, by decide, by decide, by decide⟩ ?_ ?_ ?_ (by simp))
      · intro x b h
        simp only [terms, List.zip_cons_cons, List.zip_nil_right, List.mem_singleton, Prod.mk.injEq] at h
        rw [h.2]; decide
      · intro x b h
        simp only [terms, List.zip_cons_cons, List.zip_nil_right, List.mem_singleton, Prod.mk.injEq] at h
        rw [h.2]; rfl
      · intro x hx
        have hx : x = 0 := by simpa using hx
        subst hx; unfold exLibPriv; decide
    · refine .all _ _ (by simp) fun t ht => ?_
      obtain ⟨l, rfl, hl⟩ := exLib_leaf false t ht
      exact .leaf _ hl
  · intro t ht hs
    simp only [List.mem_cons, List.not_mem_nil, or_false] at ht
    rcases ht with rfl | rfl
    · cases hs
    · refine .all _ fun t ht => ?_
      obtain ⟨l, rfl, hl⟩ := exLib_leaf true t ht
      exact .leaf _ hl
  · intro t ht
    simp only [List.mem_cons, List.not_mem_nil, or_false] at ht
    rcases ht with rfl | rfl
    · exact .leaf _
    · refine .all _ _ (fun t ht => ?_) fun i j t u x hij ht hu h1 h2 => ?_
      · obtain ⟨l, rfl, _⟩ := exLib_leaf false t ht
        exact .leaf _
      · match i, j with
        | 0, 0 => exact hij rfl
        | 1, 1 => exact hij rfl
        | 0, 1 =>
          simp at ht hu; subst ht hu
          rcases exLib_writes_ne h1 with rfl | rfl <;> rcases exLib_writes_range h2 with h | h <;> revert h <;> decide
        | 1, 0 =>
          simp at ht hu; subst ht hu
          rcases exLib_writes_ne h2 with rfl | rfl <;> rcases exLib_writes_range h1 with h | h <;> revert h <;> decide
        | i + 2, _ => simp at ht
        | _, j + 2 => simp at hu
  · intro i j t u x hij ht hu h1 h2
    have h0 : ∀ s, ¬ AtLeaf (leafWrites (libProfile exLibPriv)) (.leaf (.dlrep s) : Stmt (ZMod 7)) x := by
      rintro s (⟨_, _, h⟩); exact h
    match i, j with
    | 0, _ => simp only [List.getElem?_cons_zero, Option.some.injEq] at ht; subst ht; exact h0 _ h1
    | _, 0 => simp only [List.getElem?_cons_zero, Option.some.injEq] at hu; subst hu; exact h0 _ h2
    | 1, 1 => exact hij rfl
    | i + 2, _ => simp at ht
    | _, j + 2 => simp at hu
  · intro t ht
    simp only [List.mem_cons, List.not_mem_nil, or_false] at ht
    rcases ht with rfl | rfl
    · exact .leaf _
    · refine .all _ _ (fun t ht => ?_) fun u rest hu => ?_
      · obtain ⟨l, rfl, _⟩ := exLib_leaf false t ht
        exact .leaf _
      · exfalso
        generalize hs : (Tree.and false [exLibNe.stmt, exThree.stmt]) = r at hu
        cases hu with
        | here => cases hs
        | down b ls t rs u rest h =>
          injection hs with _ hs
          have hm : t ∈ [exLibNe.stmt, exThree.stmt] := by rw [hs]; simp
          obtain ⟨l, rfl, _⟩ := exLib_leaf false t hm
          cases h
  · refine .any _ _ _ _ rfl fun i t u ht hu => ?_
    match i with
    | 0 =>
      simp only [List.getElem?_cons_zero, Option.some.injEq] at ht hu
      subst ht hu
      exact .leaf _ _ ⟨rfl, rfl, rfl⟩
    | 1 =>
      simp only [List.getElem?_cons_succ, List.getElem?_cons_zero, Option.some.injEq] at ht hu
      subst ht hu
      refine .all _ _ _ _ rfl fun i t u ht hu => ?_
      match i with
      | 0 =>
        simp only [List.getElem?_cons_zero, Option.some.injEq] at ht hu
        subst ht hu
        exact NotEqual.verifierFor _ _ _ _ _ _ _ _ _
      | 1 =>
        simp only [List.getElem?_cons_succ, List.getElem?_cons_zero, Option.some.injEq] at ht hu
        subst ht hu
        exact .leaf _ _ (PowerTwo.leafFor (s := exThree) (s' := { exThree with isProver := false }) rfl rfl rfl rfl
          exNoValues (by simp) _ _ rfl rfl)
      | i + 2 => simp at ht
    | i + 2 => simp at ht

end Zksk.Props
