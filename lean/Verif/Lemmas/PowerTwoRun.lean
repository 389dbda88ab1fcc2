import Verif.Lemmas.NotEqualRun
import Verif.Lemmas.RangeRun

/-! Honest runs of range proofs for powers of two. -/

set_option linter.unusedSectionVars false

namespace Zksk

open Spec

variable {E : Type} [AddCommGroup E] [DecidableEq E]

namespace PowerTwo

theorem build_get {σ : Store} {s : PowerTwo E} : ∀ (rands : List Sec) (cs : List (Pt E)) (bits : Option (List Int))
    (i : Nat) (t : Core E), (build σ s cs rands bits)[i]? = some t →
    ∃ c r bit, cs[i]? = some c ∧ rands[i]? = some r ∧
      (∀ bs, bits = some bs → ∃ b, bs[i]? = some b ∧ bit = some b) ∧ t = .or false (clauses σ s c r bit)
  | [], cs, bits, i, t, h => by simp [build] at h
  | r :: rands, [], bits, i, t, h => by simp [build] at h
  | r :: rands, c :: cs, none, i, t, h => by
    simp only [build] at h
    cases i with
    | zero =>
      simp only [List.getElem?_cons_zero, Option.some.injEq] at h
      exact ⟨c, r, none, rfl, rfl, by simp, h.symm⟩
    | succ i => simpa using build_get rands cs none i t (by simpa using h)
  | r :: rands, c :: cs, some [], i, t, h => by simp [build] at h
  | r :: rands, c :: cs, some (b0 :: bs), i, t, h => by
    simp only [build] at h
    cases i with
    | zero =>
      simp only [List.getElem?_cons_zero, Option.some.injEq] at h
      exact ⟨c, r, some b0, rfl, rfl, by simp, h.symm⟩
    | succ i => simpa using build_get rands cs (some bs) i t (by simpa using h)

theorem secrets_clauses (σ : Store) (s : PowerTwo E) (c : Pt E) (r : Sec) (bit : Option Int) :
    secrets (.or false (clauses σ s c r bit)) = [r, r] := by
  simp [clauses, secrets, secretsL]

theorem mem_secretsL {x : Sec} : ∀ {ts : List (Core E)}, x ∈ secretsL ts ↔ ∃ t ∈ ts, x ∈ secrets t
  | [] => by simp [secretsL]
  | t :: ts => by simp [secretsL, mem_secretsL (ts := ts)]

theorem build_shape (s s' : PowerTwo E) (hg : s'.g = s.g) (hh : s'.h = s.h) (σ σ' : Store) :
    ∀ (rands : List Sec) (cs : List (Pt E)) (bits bits' : Option (List Int)),
    (∀ bs, bits = some bs → rands.length ≤ bs.length) → (∀ bs, bits' = some bs → rands.length ≤ bs.length) →
    shapeL (build σ s cs rands bits) = shapeL (build σ' s' cs rands bits') ∧
    secretsL (build σ s cs rands bits) = secretsL (build σ' s' cs rands bits')
  | [], cs, bits, bits', _, _ => by simp [build]
  | r :: rands, [], bits, bits', _, _ => by simp [build]
  | r :: rands, c :: cs, bits, bits', h, h' => by
    have key : ∀ (σ : Store) (s : PowerTwo E) (bits : Option (List Int)),
        (∀ bs, bits = some bs → (r :: rands).length ≤ bs.length) →
        ∃ bit rest, (∀ bs, rest = some bs → rands.length ≤ bs.length) ∧
          build σ s (c :: cs) (r :: rands) bits = .or false (clauses σ s c r bit) :: build σ s cs rands rest := by
      intro σ s bits h
      cases bits with
      | none => exact ⟨none, none, by simp, rfl⟩
      | some bs =>
        cases bs with
        | nil => have := h [] rfl; simp at this
        | cons b bs => exact ⟨some b, some bs, fun bs' e => by
            injection e with e; subst e; simpa using h _ rfl, rfl⟩
    obtain ⟨b1, r1, l1, e1⟩ := key σ s bits h
    obtain ⟨b2, r2, l2, e2⟩ := key σ' s' bits' h'
    obtain ⟨i1, i2⟩ := build_shape s s' hg hh σ σ' rands cs r1 r2 l1 l2
    rw [e1, e2]
    simp only [shapeL, secretsL, i1, i2, secrets_clauses, and_true]
    simp only [shape, clauses, shapeL, hg, hh, List.length_cons, List.length_nil]

section
variable {s : PowerTwo E} {σ : Store} {cs : List (Pt E)} {bits : Option (List Int)}

theorem build_secrets : ∀ x ∈ secrets (.and false (build σ s cs s.rands bits)), x ∈ s.rands := by
  intro x hx
  simp only [secrets] at hx
  obtain ⟨t, ht, hx⟩ := mem_secretsL.mp hx
  obtain ⟨c, _, r, hr, b, rfl⟩ := mem_build _ _ _ _ ht
  rw [secrets_clauses] at hx
  simp at hx
  subst hx; exact hr

theorem build_known : ∀ x ∈ knownSecrets (.and false (build σ s cs s.rands bits)), x ∈ s.rands := by
  have key : ∀ (ts : List (Core E)) (x : Sec), x ∈ knownSecretsL ts → ∃ t ∈ ts, x ∈ knownSecrets t := by
    intro ts x
    induction ts with
    | nil => simp [knownSecretsL]
    | cons t ts ih =>
      intro h
      simp only [knownSecretsL, List.mem_append] at h
      rcases h with h | h
      · exact ⟨t, by simp, h⟩
      · obtain ⟨t', ht', hx⟩ := ih h
        exact ⟨t', by simp [ht'], hx⟩
  intro x hx
  simp only [knownSecrets] at hx
  obtain ⟨t, ht, hx⟩ := key _ _ hx
  obtain ⟨c, _, r, hr, b, rfl⟩ := mem_build _ _ _ _ ht
  have hk : ∀ y, y ∈ (knownValues σ [r] []).map Prod.fst → y = r := by
    intro y hy
    obtain ⟨e, he, rfl⟩ := List.mem_map.mp hy
    rcases knownValues_keys σ _ _ e he with h | h
    · simpa using h
    · simp at h
  simp only [clauses, knownSecrets, knownSecretsL, List.append_nil, List.mem_append] at hx
  rw [hx.elim (hk x) (hk x)]
  exact hr

theorem solidL_of {ts : List (Core E)} (h : ∀ t ∈ ts, Solid t) : SolidL ts := by
  induction ts with
  | nil => trivial
  | cons t ts ih => exact ⟨h t (by simp), ih fun t ht => h t (by simp [ht])⟩

theorem build_ne (hn : 2 ≤ s.numBits) (hl : cs.length = s.numBits)
    (hb : ∀ bs, bits = some bs → s.numBits ≤ bs.length) : build σ s cs s.rands bits ≠ [] := by
  intro he
  have := build_length (σ := σ) (s := s) s.rands cs bits hl hb
  rw [he] at this
  unfold numBits at hn
  simp at this
  omega

theorem build_solid (hn : 2 ≤ s.numBits) (hl : cs.length = s.numBits)
    (hb : ∀ bs, bits = some bs → s.numBits ≤ bs.length) (hc : ∀ c ∈ cs, c.grp = s.g.grp)
    (hh : s.h.grp = s.g.grp) (hord : s.g.grp.order ≠ 0) : Solid (.and false (build σ s cs s.rands bits)) := by
  refine ⟨build_ne hn hl hb, solidL_of fun t ht => ?_⟩
  obtain ⟨c, hc', r, hr, b, rfl⟩ := mem_build _ _ _ _ ht
  simp [clauses, Solid, SolidL, hh, hc c hc', hord]

theorem build_terms {x : Sec} {b : Pt E} (h : (x, b) ∈ terms (.and false (build σ s cs s.rands bits))) :
    b = s.h := by
  simp only [terms] at h
  obtain ⟨t, ht, hx⟩ := mem_termsL.mp h
  obtain ⟨c, _, r, hr, b', rfl⟩ := mem_build _ _ _ _ ht
  simp [clauses, terms, termsL] at hx
  exact hx.2

theorem build_composable (hnames : (s.rands.map σ.name).Nodup) :
    Composable σ (.and false (build σ s cs s.rands bits)) := by
  refine .and _ _ (fun x b y c hx hy _ => by rw [build_terms hx, build_terms hy]) ?_ ?_
  · intro pre u post ho x hx y hy he
    generalize hk : build σ s cs s.rands bits = k at ho
    cases ho with
    | down _ ls t rs pre post _ ho =>
    have ht : (build σ s cs s.rands bits)[ls.length]? = some t := by rw [hk]; simp
    obtain ⟨c, r, bit, _, hr, _, rfl⟩ := build_get _ _ _ _ _ ht
    cases ho with
    | here =>
    rw [secrets_clauses] at hx
    simp only [List.mem_cons, List.not_mem_nil, or_false, or_self] at hx
    subst hx
    simp only [List.append_nil, List.nil_append, List.mem_append] at hy
    have hidx : ∃ j, j ≠ ls.length ∧ s.rands[j]? = some y := by
      rcases hy with hy | hy
      · obtain ⟨t', ht', hy⟩ := mem_secretsL.mp hy
        obtain ⟨j, hj⟩ := List.mem_iff_getElem?.mp ht'
        have hlt : j < ls.length := (List.getElem?_eq_some_iff.mp hj).1
        have : (build σ s cs s.rands bits)[j]? = some t' := by
          rw [hk, List.getElem?_append_left hlt]; exact hj
        obtain ⟨c', r', bit', _, hr', _, rfl⟩ := build_get _ _ _ _ _ this
        rw [secrets_clauses] at hy
        simp only [List.mem_cons, List.not_mem_nil, or_false, or_self] at hy
        subst hy
        exact ⟨j, by omega, hr'⟩
      · obtain ⟨t', ht', hy⟩ := mem_secretsL.mp hy
        obtain ⟨j, hj⟩ := List.mem_iff_getElem?.mp ht'
        have : (build σ s cs s.rands bits)[ls.length + (j + 1)]? = some t' := by
          rw [hk, List.getElem?_append_right (by omega)]
          simpa using hj
        obtain ⟨c', r', bit', _, hr', _, rfl⟩ := build_get _ _ _ _ _ this
        rw [secrets_clauses] at hy
        simp only [List.mem_cons, List.not_mem_nil, or_false, or_self] at hy
        subst hy
        exact ⟨_, by omega, hr'⟩
    obtain ⟨j, hj, hy'⟩ := hidx
    have n1 : (s.rands.map σ.name)[ls.length]? = some (σ.name x) := by simp [hr]
    have n2 : (s.rands.map σ.name)[j]? = some (σ.name y) := by simp [hy']
    obtain ⟨l1, e1⟩ := List.getElem?_eq_some_iff.mp n1
    obtain ⟨l2, e2⟩ := List.getElem?_eq_some_iff.mp n2
    have : σ.name x = σ.name y := congrArg Prod.fst he
    rw [← e1, ← e2] at this
    exact hj ((List.Nodup.getElem_inj_iff hnames).mp this).symm
  · intro t ht
    obtain ⟨c, _, r, hr, b, rfl⟩ := mem_build _ _ _ _ ht
    refine .or _ _ ?_ ?_
    · intro x b y c hx hy _
      simp [clauses, terms, termsL] at hx hy
      rw [hx.2, hy.2]
    · intro t ht
      simp only [clauses, List.mem_cons, List.not_mem_nil, or_false] at ht
      rcases ht with rfl | rfl <;> exact .leaf _

theorem build_satisfied (hh : s.h.grp = s.g.grp) {bs vs : List Int} {d : Dict Int} (hd : Told σ d)
    (hb : ∀ b ∈ bs, b = 0 ∨ b = 1) (hv : s.rands.map σ.value = vs.map some)
    (hcs : cs = List.zipWith (fun b v => ⟨s.g.grp, b • s.g.val + v • s.h.val⟩) bs vs) :
    Satisfied σ d valueOf (.and false (build σ s cs s.rands (some bs))) := by
  refine .all _ fun t ht => ?_
  obtain ⟨i, hi⟩ := List.mem_iff_getElem?.mp ht
  obtain ⟨c, r, bit, h1, h2, h3, rfl⟩ := build_get _ _ _ _ _ hi
  obtain ⟨b, h4, rfl⟩ := h3 bs rfl
  have hbm := hb b (List.mem_of_getElem? h4)
  have hv' : (s.rands.map σ.value)[i]? = (vs.map some)[i]? := by rw [hv]
  rw [List.getElem?_map, List.getElem?_map, h2] at hv'
  obtain ⟨v, h5, h6⟩ : ∃ v, vs[i]? = some v ∧ σ.value r = some v := by
    cases h : vs[i]? with
    | none => rw [h] at hv'; simp at hv'
    | some v => rw [h] at hv'; exact ⟨v, rfl, by simpa using hv'⟩
  have hc : c = ⟨s.g.grp, b • s.g.val + v • s.h.val⟩ := by
    rw [hcs, List.getElem?_zipWith, h4, h5] at h1
    simpa using h1.symm
  have hk : valueOf (σ.key r) = v := by simp [valueOf, Store.key, h6]
  subst hc
  rcases hbm with rfl | rfl
  · refine .any _ ⟨_, by simp only [clauses]; exact List.mem_cons_self, by simp [unmarked]⟩ fun t ht hu => ?_
    simp only [clauses, List.mem_cons, List.not_mem_nil, or_false] at ht
    rcases ht with rfl | rfl
    · refine satisfied_rep hd rfl (by simp [h6]) (.rep _ _ (by simp [hh]) ?_)
      simp [hk]
    · simp [unmarked] at hu
  · refine .any _ ⟨_, by simp only [clauses]; exact List.mem_cons_of_mem _ List.mem_cons_self,
      by simp [unmarked]⟩ fun t ht hu => ?_
    simp only [clauses, List.mem_cons, List.not_mem_nil, or_false] at ht
    rcases ht with rfl | rfl
    · simp [unmarked] at hu
    · refine satisfied_rep hd rfl (by simp [h6]) (.rep _ _ (by simp [hh]) ?_)
      simp [hk]

end

/-- The dictionary sent before the proof. -/
def message (cs : List (Pt E)) (rand : Int) : Val E := .dict [("Cs", .list (cs.map .pt)), ("rand", .int rand)]

theorem construct_of {s : PowerTwo E} {σ : Store} {cs : List (Pt E)} {rand : Int} {bits : Option (List Int)}
    (hn : 2 ≤ s.numBits) (hl : cs.length = s.numBits) (hc : ∀ c ∈ cs, c.grp = s.g.grp)
    (hb : s.proverBits σ = .ok bits) (hbl : ∀ bs, bits = some bs → s.numBits ≤ bs.length) :
    s.construct σ (message cs rand) = .ok (.and false (build σ s cs s.rands bits)) := by
  unfold construct
  rw [hb, bind_ok]
  have hlook : (message cs rand).lookup "Cs" = .ok (.list (cs.map .pt)) := rfl
  rw [bitProofs_of hlook s.rands 0 bits cs hl hc ?_ hbl, bind_ok]
  · have hlen := build_length (σ := σ) (s := s) s.rands cs bits hl hbl
    unfold numBits at hn
    unfold mkAnd
    rw [if_neg (by omega)]
  · intro j c hj
    simp only [Nat.zero_add, Val.index, List.getElem?_map, hj, Option.map_some]

theorem validate_of {s : PowerTwo E} {cs : List (Pt E)} {rand : Int} (hc : ∀ c ∈ cs, c.grp = s.g.grp)
    (hcom : s.com.grp = s.g.grp) (hh : s.h.grp = s.g.grp)
    (hv : hornerE (cs.map Pt.val) = s.com.val + rand • s.h.val) : s.validate (message cs rand) = .ok () :=
  (s.validate_iff _).mpr ⟨rand, _, cs, rfl, rfl, rfl, hc, hcom, hh, hv⟩

theorem drawRands_of {m : Nat} (hm : m ≠ 0) : ∀ (ss : List Sec) (w : World), ss.Nodup →
    ∃ (vs : List Int) (w' : World), drawRands m ss w = .ok ((), w') ∧ ss.map w'.store.value = vs.map some ∧
      w'.store.name = w.store.name
  | [], w, _ => ⟨[], w, rfl, rfl, rfl⟩
  | s :: ss, w, h => by
    rw [List.nodup_cons] at h
    obtain ⟨v, w1, h1, h2⟩ := draw_progress hm w
    obtain ⟨vs, w2, h3, h4, h5⟩ := drawRands_of hm ss { w1 with store := w1.store.setValue s v } h.2
    refine ⟨v :: vs, w2, ?_, ?_, ?_⟩
    · simp only [drawRands]
      rw [pm_bind_eq h1, pm_getStore_bind, pm_setStore_bind]
      exact h3
    · rw [List.map_cons, List.map_cons, h4]
      have := drawRands_frame ss h3 s h.1
      have := congrArg Prod.snd this
      simp only [Store.key, Store.setValue, if_true] at this
      rw [this]
    · rw [h5, ← h2]; rfl

theorem bitComs_of {σ : Store} {g h : Pt E} (hh : h.grp = g.grp) : ∀ (ss : List Sec) (bs vs : List Int),
    ss.map σ.value = vs.map some → bs.length = ss.length →
    bitComs σ g h bs ss =
      .ok ((List.zipWith (fun b v => (⟨g.grp, b • g.val + v • h.val⟩ : Pt E)) bs vs).map .pt)
  | [], [], vs, _, _ => by simp [bitComs]
  | s :: ss, b :: bs, [], hv, _ => by simp at hv
  | s :: ss, b :: bs, v :: vs, hv, hl => by
    simp only [List.map_cons, List.cons.injEq] at hv
    simp only [bitComs, hv.1, bind_ok, Pt.add, Pt.smul, hh, if_true,
      bitComs_of hh ss bs vs hv.2 (by simpa using hl), List.zipWith_cons_cons, List.map_cons]
  | [], b :: bs, vs, _, h => by simp at h
  | s :: ss, [], vs, _, h => by simp at h

theorem values_of {σ : Store} : ∀ (ss : List Sec) (vs : List Int), ss.map σ.value = vs.map some →
    values σ ss = .ok vs
  | [], [], _ => rfl
  | [], v :: vs, h => by simp at h
  | s :: ss, [], h => by simp at h
  | s :: ss, v :: vs, h => by
    simp only [List.map_cons, List.cons.injEq] at h
    simp only [values, h.1, bind_ok, values_of ss vs h.2]

theorem precommit_of {s : PowerTwo E} (hp : s.isProver = true) (hh : s.h.grp = s.g.grp)
    (hord : s.g.grp.order ≠ 0) (hnd : s.rands.Nodup) (hr : s.r ∉ s.rands) {w : World}
    {x r : Int} (hx : w.store.value s.x = some x) (hx0 : 0 ≤ x) (hx1 : x < 2 ^ s.numBits)
    (hrv : w.store.value s.r = some r) :
    ∃ (bs vs : List Int) (w' : World), decomposeIntoNBits x s.numBits = .ok bs ∧ s.rands.map w'.store.value = vs.map some ∧
      w'.store.name = w.store.name ∧ (∀ y, y ∉ s.rands → w'.store.key y = w.store.key y) ∧
      s.precommit w = .ok (message (List.zipWith (fun b v => ⟨s.g.grp, b • s.g.val + v • s.h.val⟩) bs vs)
        ((sumRands s.order 0 1 vs - r) % (s.order : Int)), w') := by
  obtain ⟨bs, h1⟩ := decompose_isOk hx0 hx1
  obtain ⟨vs, w', h2, h3, h4⟩ := drawRands_of (m := s.order) hord s.rands w hnd
  have hfr := drawRands_frame _ h2
  refine ⟨bs, vs, w', h1, h3, h4, hfr, ?_⟩
  unfold precommit
  rw [pm_getStore_bind]
  simp only [value, hp, if_true, hx]
  rw [pm_liftE_bind, h1, pm_liftE_bind, pm_bind_eq h2, pm_getStore_bind,
    bitComs_of hh s.rands bs vs h3 (decompose_ok h1).1, pm_liftE_bind, values_of _ _ h3, pm_liftE_bind]
  have : w'.store.value s.r = some r := by rw [← hrv]; exact congrArg Prod.snd (hfr _ hr)
  rw [this]
  rfl

theorem drawMany_of {m : Nat} (hm : m ≠ 0) : ∀ (n : Nat) (w : World), ∃ vs w', drawMany m n w = .ok (vs, w') ∧
    vs.length = n ∧ w'.store = w.store
  | 0, w => ⟨[], w, rfl, rfl, rfl⟩
  | n + 1, w => by
    obtain ⟨v, w1, h1, h2⟩ := draw_progress hm w
    obtain ⟨vs, w2, h3, h4, h5⟩ := drawMany_of hm n w1
    refine ⟨v :: vs, w2, ?_, by simp [h4], h5.trans h2⟩
    simp only [drawMany]
    rw [pm_bind_eq h1, pm_bind_eq h3]
    rfl

/-- Precommitments that pass validation. -/
def valid (sp : ExtSpec E) (v : Val E) : Prop := sp.validate v = .ok () ∧ ∀ s, v ≠ .str s

theorem hornerE_smul (h : E) : ∀ vs : List Int, hornerE (vs.map fun u => u • h) = horner vs • h
  | [] => by simp [hornerE, horner]
  | v :: vs => by
    simp only [List.map_cons, hornerE, hornerE_smul h vs, horner, add_smul, mul_smul]

theorem proverBits_of {s : PowerTwo E} {σ : Store}
    (hx : s.isProver = true → ∃ x, σ.value s.x = some x ∧ 0 ≤ x ∧ x < 2 ^ s.numBits) :
    ∃ bits, s.proverBits σ = .ok bits ∧ ∀ bs, bits = some bs → s.numBits ≤ bs.length := by
  unfold proverBits
  cases hp : s.isProver with
  | false => exact ⟨none, rfl, by simp⟩
  | true =>
    obtain ⟨x, h1, h2, h3⟩ := hx hp
    obtain ⟨bs, h4⟩ := decompose_isOk h2 h3
    refine ⟨some bs, ?_, fun bs' e => ?_⟩
    · simp only [if_true, value, hp, h1, bind_ok, h4]
    · injection e with e; subst e; rw [(decompose_ok h4).1]

theorem canSimulate {s : PowerTwo E} (hcom : s.com.grp = s.g.grp) (hh : s.h.grp = s.g.grp)
    (hord : s.g.grp.order ≠ 0) (htor : (s.g.grp.order : Int) • s.h.val = 0) (hn : 2 ≤ s.numBits) {σ : Store}
    (hx : s.isProver = true → ∃ x, σ.value s.x = some x ∧ 0 ≤ x ∧ x < 2 ^ s.numBits) (F : Profile E)
    (hF : ∀ y ∈ s.rands, F.occurs s.spec y) :
    CanSimulate F s.g.grp.order σ (valid s.spec) s.spec := by
  intro w hw
  obtain ⟨vs, w', h1, h2, h3⟩ := drawMany_of (m := s.order) hord s.numBits w
  obtain ⟨bits, h4, h5⟩ := proverBits_of hx
  cases vs with
  | nil => simp at h2; omega
  | cons v rest =>
    let cs : List (Pt E) := ⟨s.g.grp, v • s.h.val + s.com.val⟩ :: rest.map fun u => Pt.smul u s.h
    have hl : cs.length = s.numBits := by simpa [cs] using h2
    have hc : ∀ c ∈ cs, c.grp = s.g.grp := by
      intro c hc
      rcases List.mem_cons.mp hc with rfl | hc
      · rfl
      · obtain ⟨u, _, rfl⟩ := List.mem_map.mp hc
        exact hh
    refine ⟨message cs (sumRands s.order 0 1 (v :: rest)), w', _, ?_, h3.trans hw, construct_of hn hl hc h4 h5,
      rfl, build_solid hn hl h5 hc hh hord, fun x b hx => ?_, fun x hx => hF x (build_secrets x hx), ?_, ?_⟩
    · show s.simPrecommit w = _
      unfold simPrecommit
      rw [pm_bind_eq h1]
      simp only [Pt.add, Pt.smul, hh, hcom, if_true]
      rw [pm_liftE_bind]
      simp only [message, cs, List.map_cons, List.map_map, Function.comp_def, Pt.smul, hh]
      rfl
    · rw [build_terms hx, hh]
    · refine validate_of hc hcom hh ?_
      have hd := sumRands_mod s.order (v :: rest) 0 1
      have : sumRands s.order 0 1 (v :: rest) • s.h.val = horner (v :: rest) • s.h.val := by
        refine smul_eq_of_dvd htor ?_
        simpa [order] using hd
      rw [this]
      simp only [cs, List.map_cons, List.map_map, Function.comp_def, Pt.smul, hornerE, horner, hornerE_smul,
        add_smul, mul_smul]
      abel
    · intro s' hs'; cases hs'

theorem canProve {s : PowerTwo E} (hp : s.isProver = true) (hcom : s.com.grp = s.g.grp) (hh : s.h.grp = s.g.grp)
    (hord : s.g.grp.order ≠ 0) (htor : (s.g.grp.order : Int) • s.h.val = 0) (hn : 2 ≤ s.numBits)
    (hx' : s.x ∉ s.rands) (hr' : s.r ∉ s.rands) {σ : Store}
    {x r : Int} (hx : σ.value s.x = some x) (hx0 : 0 ≤ x) (hx1 : x < 2 ^ s.numBits) (hr : σ.value s.r = some r)
    (hnames : (s.rands.map σ.name).Nodup) (hv : s.com.val = x • s.g.val + r • s.h.val) (F : Profile E)
    (hF : ∀ y ∈ s.rands, F.occurs s.spec y) (hR : ∀ y, y = s.x ∨ y = s.r ∨ y ∈ s.rands → F.reads s.spec y)
    (hW : ∀ y ∈ s.rands, F.writes s.spec y) {d : Dict Int} (hd : Told σ d) (hda : ∀ e ∈ d, e.1 ∉ s.rands) :
    CanProve F s.g.grp.order σ d (valid s.spec) s.spec := by
  intro w hw
  have hwx : w.store.value s.x = some x := by
    rw [← hx]; exact congrArg Prod.snd (hw s.x (.inl (hR _ (.inl rfl))))
  have hwr : w.store.value s.r = some r := by
    rw [← hr]; exact congrArg Prod.snd (hw s.r (.inl (hR _ (.inr (.inl rfl)))))
  have hnd : s.rands.Nodup := List.Nodup.of_map _ hnames
  obtain ⟨bs, vs, w', h1, h2, h3, h4, h5⟩ := precommit_of hp hh hord hnd hr' hwx hx0 hx1 hwr
  obtain ⟨l1, l2, l3⟩ := decompose_ok h1
  have hvl : vs.length = s.rands.length := by have := congrArg List.length h2; simpa using this.symm
  have hpb : s.proverBits w'.store = .ok (some bs) := by
    have : w'.store.value s.x = some x := by rw [← hwx]; exact congrArg Prod.snd (h4 _ hx')
    unfold proverBits
    simp only [hp, if_true, value, this, bind_ok, h1]
  have hbl : ∀ bs', some bs = some bs' → s.numBits ≤ bs'.length := by
    intro bs' e; injection e with e; subst e; rw [l1]
  have hl : (List.zipWith (fun b v => (⟨s.g.grp, b • s.g.val + v • s.h.val⟩ : Pt E)) bs vs).length = s.numBits := by
    rw [List.length_zipWith, l1, hvl]; simp [numBits]
  have hc : ∀ c ∈ List.zipWith (fun b v => (⟨s.g.grp, b • s.g.val + v • s.h.val⟩ : Pt E)) bs vs,
      c.grp = s.g.grp := by
    intro c hc
    obtain ⟨i, hi⟩ := List.mem_iff_getElem?.mp hc
    rw [List.getElem?_zipWith] at hi
    cases hb : bs[i]? <;> cases hv : vs[i]? <;> simp [hb, hv] at hi
    rw [← hi]
  have htold : Told w'.store d := told_same (told_same hd fun y hy => hw y (.inr hy))
    fun y hy => h4 y (by obtain ⟨e, he, rfl⟩ := List.mem_map.mp hy; exact hda e he)
  have hnm : w'.store.name = w.store.name := h3
  have hnames' : (s.rands.map w'.store.name).Nodup := by
    have : s.rands.map w'.store.name = s.rands.map σ.name := by
      rw [hnm]
      refine List.map_congr_left fun y hy => ?_
      exact congrArg Prod.fst (hw y (.inl (hR y (.inr (.inr hy)))))
    rw [this]; exact hnames
  refine ⟨_, w', _, h5, fun y hy => h4 y fun hm => hy (hW y hm), h3, construct_of hn hl hc hpb hbl, .inr rfl,
    build_solid hn hl hbl hc hh hord, fun y b hy => ?_, fun y b hy => ?_, fun y hy => hF y (build_secrets y hy),
    fun y hy => hR y (.inr (.inr (build_known y hy))), build_satisfied hh htold l2 h2 rfl,
    build_composable hnames', ?_, ?_⟩
  · rw [build_terms hy, hh]; exact htor
  · rw [build_terms hy, hh]
  · refine validate_of hc hcom hh ?_
    have hmap : (List.zipWith (fun b v => (⟨s.g.grp, b • s.g.val + v • s.h.val⟩ : Pt E)) bs vs).map Pt.val =
        List.zipWith (fun b v => b • s.g.val + v • s.h.val) bs vs := by
      rw [List.map_zipWith]
    rw [hmap, hornerE_zip _ _ _ _ (by rw [l1, hvl]; rfl), l3, hv]
    have : ((sumRands s.order 0 1 vs - r) % (s.order : Int)) • s.h.val = (horner vs - r) • s.h.val := by
      refine smul_eq_of_dvd htor ?_
      have hd := sumRands_mod s.order vs 0 1
      rw [zero_add, one_mul] at hd
      have h2 : (s.order : Int) ∣ (sumRands s.order 0 1 vs - r) % (s.order : Int) - (sumRands s.order 0 1 vs - r) :=
        ⟨-((sumRands s.order 0 1 vs - r) / (s.order : Int)), by
          have := Int.emod_add_mul_ediv (sumRands s.order 0 1 vs - r) (s.order : Int); linarith⟩
      have h3 := dvd_add h2 hd
      have e : (sumRands s.order 0 1 vs - r) % (s.order : Int) - (sumRands s.order 0 1 vs - r) +
          (sumRands s.order 0 1 vs - horner vs) = (sumRands s.order 0 1 vs - r) % (s.order : Int) -
          (horner vs - r) := by ring
      rw [e] at h3
      exact h3
    rw [this, sub_smul]
    abel
  · intro s' hs'; cases hs'

/-- A verifier's object for the same range. -/
theorem leafFor {s s' : PowerTwo E} (hcom : s'.com = s.com) (hg : s'.g = s.g) (hh : s'.h = s.h)
    (hr : s'.rands = s.rands) (σv : Store)
    (hx : s'.isProver = true → ∃ x, σv.value s'.x = some x ∧ 0 ≤ x ∧ x < 2 ^ s'.numBits)
    (e e' : Ext E) (he : e.spec = s.spec) (he' : e'.spec = s'.spec) :
    LeafFor σv (.ext e') (.ext e) := by
  show e'.spec.cls = e.spec.cls ∧ e'.spec.validate = e.spec.validate ∧ _
  rw [he, he']
  refine ⟨rfl, ?_, ?_⟩
  · show s'.validate = s.validate
    funext v
    unfold validate
    rw [hcom, hg, hh]
  · intro σ v k hk
    have hk' : s.construct σ v = .ok k := hk
    obtain ⟨bits', p1, p2⟩ := proverBits_of hx
    obtain ⟨hn, cs, bits, g1, g2, g3, g4, rfl⟩ := construct_inv hk'
    have hn' : s'.numBits = s.numBits := by unfold numBits; rw [hr]
    refine ⟨.and false (build σv s' cs s'.rands bits'), ?_, ?_⟩
    · show s'.construct σv v = _
      unfold construct
      rw [p1, bind_ok]
      obtain ⟨l, hlk⟩ : ∃ l, v.lookup "Cs" = .ok l := by
        cases cs with
        | nil => simp at g1; omega
        | cons c cs => obtain ⟨l, hl, _⟩ := g3 0 c rfl; exact ⟨l, hl⟩
      rw [bitProofs_of hlk s'.rands 0 bits' cs (by rw [hr]; exact g1) (by rw [hg]; exact g2) ?_ p2, bind_ok]
      · have hlen := build_length (σ := σv) (s := s') s'.rands cs bits' (by rw [hr]; exact g1) p2
        unfold mkAnd
        rw [if_neg]
        rw [hlen, hr]
        unfold numBits at hn
        omega
      · intro j c hj
        obtain ⟨l', hl', hi⟩ := g3 j c hj
        rw [hlk] at hl'
        injection hl' with hl'; subst hl'
        simpa using hi
    · obtain ⟨i1, i2⟩ := build_shape s' s hg.symm hh.symm σv σ s.rands cs bits' bits
        (by intro bs e; have := p2 bs e; rw [hn'] at this; exact this) g4
      rw [hr]
      exact ⟨by simp only [shape, i1], by simp only [secrets, i2]⟩

end PowerTwo
end Zksk
