import Verif.Lemmas.NotEqualRun
import Verif.Props.BBSProof

/-! Honest runs of proofs of BBS+ signatures. -/

set_option linter.unusedSectionVars false

namespace Zksk.BBS

open Spec

variable {E : Type} [AddCommGroup E] [DecidableEq E]

/-- The secrets the statement makes itself. -/
def own (s : BBS E) : List Sec := [s.r1, s.r2, s.delta1, s.delta2]

/-- The profile of a single proof of a signature. -/
def profile (s : BBS E) : Profile E where
  reads _ y := y ∈ s.own ∨ y ∈ s.vars
  writes _ y := y ∈ s.own
  occurs _ y := y ∈ s.own ∨ y ∈ s.vars

/-- What precommitting does. -/
theorem precommit_form {s : BBS E} {sig : Signature E} (hsig : s.signature = some sig) {w w' : World} {v : Val E}
    (h : s.precommit w = .ok (v, w')) :
    ∃ (b0 b1 b2 a1 a2 : Pt E) (r1 r2 : Int), s.bases[0]? = some b0 ∧ s.bases[1]? = some b1 ∧
      s.bases[2]? = some b2 ∧ (Pt.smul r1 b1).add (Pt.smul r2 b2) = .ok a1 ∧
      (Pt.smul r1 b2).add sig.A = .ok a2 ∧ v = .dict [("A1", .pt a1), ("A2", .pt a2)] ∧
      w'.store = (((w.store.setValue s.r1 r1).setValue s.r2 r2).setValue s.delta1
        (r1 * sig.e % (b0.grp.order : Int))).setValue s.delta2 (r2 * sig.e % (b0.grp.order : Int)) := by
  unfold precommit at h
  simp only [hsig] at h
  rw [pm_liftE_bind_iff] at h
  obtain ⟨b0, hb0, h⟩ := h
  obtain ⟨r1, w1, h1, h⟩ := pm_bind.mp h
  obtain ⟨r2, w2, h2, h⟩ := pm_bind.mp h
  rw [pm_getStore_bind, pm_setStore_bind, pm_liftE_bind_iff] at h
  obtain ⟨b1, hb1, h⟩ := h
  rw [pm_liftE_bind_iff] at h
  obtain ⟨b2, hb2, h⟩ := h
  rw [pm_liftE_bind_iff] at h
  obtain ⟨a1, ha1, h⟩ := h
  rw [pm_liftE_bind_iff] at h
  obtain ⟨a2, ha2, h⟩ := h
  rw [pm_pure_iff] at h
  obtain ⟨rfl, rfl⟩ := h
  rw [listAt_ok] at hb0 hb1 hb2
  refine ⟨b0, b1, b2, a1, a2, r1, r2, hb0, hb1, hb2, ha1, ha2, rfl, ?_⟩
  have e1 : w1.store = w.store := (draw_ok h1).2.2.2
  have e2 : w2.store = w1.store := (draw_ok h2).2.2.2
  simp only [e2, e1]

section
variable {P : Pairing E} {s : BBS E} (hk : GoodKey P s.pk) (hord : P.order ≠ 0) {σ : Store}
  {a1 a2 g0 g1 g2 : Pt E} {gs : List (Pt E)} {ve vs : Sec} {vm : List Sec}

/-- The constructed statement. -/
def built (P : Pairing E) (s : BBS E) (σ : Store) (a1 a2 g0 g1 g2 : Pt E) (gs : List (Pt E)) (ve vs : Sec)
    (vm : List Sec) : Core E := .and false (parts P s.pk σ s a1 a2 g0 g1 g2 gs ve vs vm)

theorem built_terms {x : Sec} {b : Pt E} (h : (x, b) ∈ terms (built P s σ a1 a2 g0 g1 g2 gs ve vs vm)) :
    b = g1 ∨ b = g2 ∨ b = Pt.smul (-1) a1 ∨ b = ⟨P.GT, (-1 : Int) • P.e a2.val s.pk.h0.val⟩ ∨
      b = ⟨P.GT, P.e g2.val s.pk.w.val⟩ ∨ ∃ g ∈ g1 :: g2 :: gs, b = ⟨P.GT, P.e g.val s.pk.h0.val⟩ := by
  simp only [built, parts, terms, termsL, List.append_nil, List.mem_append] at h
  rcases h with h | h | h
  · have := (List.of_mem_zip h).2
    simp at this; tauto
  · have := (List.of_mem_zip h).2
    simp at this; tauto
  · have := (List.of_mem_zip h).2
    simp only [List.mem_cons] at this
    rcases this with rfl | rfl | rfl | rfl | this
    · tauto
    · tauto
    · exact .inr (.inr (.inr (.inr (.inr ⟨g2, by simp, rfl⟩))))
    · exact .inr (.inr (.inr (.inr (.inr ⟨g1, by simp, rfl⟩))))
    · obtain ⟨g, hg, rfl⟩ := List.mem_map.mp (List.mem_of_mem_take this)
      exact .inr (.inr (.inr (.inr (.inr ⟨g, List.mem_cons_of_mem _ hg, rfl⟩))))

include hk in
theorem built_order (hg : s.pk.generators = g0 :: g1 :: g2 :: gs) (ga1 : a1.grp = P.G1) :
    OneOrder P.order (built P s σ a1 a2 g0 g1 g2 gs ve vs vm) := by
  have hgr := hk.g1
  rw [hg] at hgr
  intro x b h
  rcases built_terms h with rfl | rfl | rfl | rfl | rfl | ⟨g, _, rfl⟩
  · rw [hgr b (by simp)]; rfl
  · rw [hgr b (by simp)]; rfl
  · show a1.grp.order = _
    rw [ga1]; rfl
  · rfl
  · rfl
  · rfl

include hk in
theorem built_torsion (hg : s.pk.generators = g0 :: g1 :: g2 :: gs)
    (htor : ∀ g ∈ s.pk.generators, (P.order : Int) • g.val = 0) (hh0 : (P.order : Int) • s.pk.h0.val = 0)
    (ga1 : a1.grp = P.G1) (ta1 : (P.order : Int) • a1.val = 0) :
    Torsion (built P s σ a1 a2 g0 g1 g2 gs ve vs vm) := by
  rw [hg] at htor
  intro x b h
  rw [built_order hk hg ga1 x b h]
  rcases built_terms h with rfl | rfl | rfl | rfl | rfl | ⟨g, _, rfl⟩
  · exact htor _ (by simp)
  · exact htor _ (by simp)
  · simp only [Pt.smul]
    rw [smul_comm, ta1, smul_zero]
  · simp only
    rw [smul_comm, ← map_zsmul, hh0, map_zero, smul_zero]
  · simp only
    rw [← AddMonoidHom.smul_apply, ← map_zsmul, htor g2 (by simp), map_zero, AddMonoidHom.zero_apply]
  · simp only
    rw [← map_zsmul, hh0, map_zero]

include hk hord in
theorem built_solid (hg : s.pk.generators = g0 :: g1 :: g2 :: gs) (hl : vm.length ≤ gs.length + 1)
    (ga1 : a1.grp = P.G1) : Solid (built P s σ a1 a2 g0 g1 g2 gs ve vs vm) := by
  have hgr := hk.g1
  rw [hg] at hgr
  have k1 := hgr g1 (by simp)
  have k2 := hgr g2 (by simp)
  simp only [built, parts, Solid, SolidL]
  refine ⟨by simp, ⟨rfl, by simp, by simp [ga1, k1, k2], ?_⟩, ⟨rfl, by simp, by simp [ga1, k1, k2, Pt.smul], hord⟩,
    ⟨by simp [hl], by simp, ?_, hord⟩, trivial⟩
  · rw [ga1]; exact hord
  · simp only [List.mem_cons]
    rintro p (rfl | rfl | rfl | rfl | hp)
    · rfl
    · rfl
    · rfl
    · rfl
    · obtain ⟨g, _, rfl⟩ := List.mem_map.mp (List.mem_of_mem_take hp)
      rfl

theorem built_secrets (hv : s.vars = ve :: vs :: vm) :
    ∀ x ∈ secrets (built P s σ a1 a2 g0 g1 g2 gs ve vs vm), x ∈ s.own ∨ x ∈ s.vars := by
  intro x hx
  rw [hv]
  simp only [built, parts, secrets, secretsL, List.append_nil, List.mem_append, List.mem_cons, List.not_mem_nil,
    or_false] at hx
  simp only [own, List.mem_cons, List.not_mem_nil, or_false]
  tauto

theorem built_known (hv : s.vars = ve :: vs :: vm) :
    ∀ x ∈ knownSecrets (built P s σ a1 a2 g0 g1 g2 gs ve vs vm), x ∈ s.own ∨ x ∈ s.vars := by
  intro x hx
  have key : ∀ l : List Sec, x ∈ (knownValues σ l []).map Prod.fst → x ∈ l := by
    intro l hl
    obtain ⟨e, he, rfl⟩ := List.mem_map.mp hl
    rcases knownValues_keys σ _ _ e he with h | h
    · exact h
    · simp at h
  apply built_secrets (P := P) (a1 := a1) (a2 := a2) (g0 := g0) (g1 := g1) (g2 := g2) (gs := gs) (σ := σ) hv
  simp only [built, parts, knownSecrets, knownSecretsL, List.append_nil, List.mem_append] at hx
  simp only [built, parts, secrets, secretsL, List.append_nil, List.mem_append]
  exact hx.imp (key _) fun hx => hx.imp (key _) (key _)

theorem built_orFree : OrFree (built P s σ a1 a2 g0 g1 g2 gs ve vs vm) := by
  refine .all _ _ fun t ht => ?_
  simp only [parts, List.mem_cons, List.not_mem_nil, or_false] at ht
  rcases ht with rfl | rfl | rfl <;> exact .rep _

end

/-- Precommitments are dictionaries, and valid. -/
def isDict (sp : ExtSpec E) (v : Val E) : Prop := (∃ l, v = .dict l) ∧ sp.validate v = .ok ()

theorem canSimulate {P : Pairing E} {s : BBS E} (hP : s.P = P) (hk : GoodKey P s.pk) (hord : P.order ≠ 0)
    (h3 : 3 ≤ s.vars.length) (hfit : s.vars.length ≤ s.pk.generators.length) (gen : E) (F : Profile E)
    (hF : ∀ y, y ∈ s.own ∨ y ∈ s.vars → F.occurs (s.spec gen) y) (σ : Store) :
    CanSimulate F P.order σ (isDict (s.spec gen)) (s.spec gen) := by
  intro w hw
  obtain ⟨g0, g1, g2, gs, hg⟩ : ∃ g0 g1 g2 gs, s.pk.generators = g0 :: g1 :: g2 :: gs := by
    match h : s.pk.generators with
    | [] => rw [h] at hfit; simp only [List.length_cons, List.length_nil] at hfit; omega
    | [_] => rw [h] at hfit; simp only [List.length_cons, List.length_nil] at hfit; omega
    | [_, _] => rw [h] at hfit; simp only [List.length_cons, List.length_nil] at hfit; omega
    | g0 :: g1 :: g2 :: gs => exact ⟨_, _, _, _, rfl⟩
  obtain ⟨ve, vs, vm, hv⟩ : ∃ ve vs vm, s.vars = ve :: vs :: vm := by
    match h : s.vars with
    | [] => simp [h] at h3
    | [_] => simp [h] at h3
    | ve :: vs :: vm => exact ⟨_, _, _, rfl⟩
  have k0 : g0.grp = P.G1 := hk.g1 g0 (by rw [hg]; simp)
  have hvm : 1 ≤ vm.length := by rw [hv] at h3; simpa using h3
  have hl : vm.length ≤ gs.length + 1 := by rw [hv, hg] at hfit; simpa using hfit
  obtain ⟨r1, w1, hr1, e1⟩ := draw_progress (m := g0.grp.order) (by rw [k0]; exact hord) w
  obtain ⟨r2, w2, hr2, e2⟩ := draw_progress (m := g0.grp.order) (by rw [k0]; exact hord) w1
  have b0 : listAt s.bases 0 = .ok g0 := by
    unfold BBS.bases
    rw [listAt_ok, hg, hv]; rfl
  refine ⟨.dict [("A1", .pt ⟨g0.grp, r1 • gen⟩), ("A2", .pt ⟨g0.grp, r2 • gen⟩)], w2,
    built P s σ ⟨g0.grp, r1 • gen⟩ ⟨g0.grp, r2 • gen⟩ g0 g1 g2 gs ve vs vm, ?_, (e2.trans e1).trans hw,
    construct_of hP hk rfl rfl hg hv hvm hl k0 k0, rfl, built_solid hk hord hg hl k0, built_order hk hg k0,
    fun x hx => hF x (built_secrets hv x hx), ⟨⟨_, rfl⟩, rfl⟩⟩
  show s.simPrecommit gen w = _
  unfold simPrecommit
  rw [b0]
  simp only [pm_liftE_bind]
  rw [pm_bind_eq hr1, pm_bind_eq hr2]
  rfl

theorem canProve {P : Pairing E} {s : BBS E} {sig : Signature E} {ms : List Int} (hP : s.P = P)
    (hk : GoodKey P s.pk) (hord : P.order ≠ 0) (htor : ∀ g ∈ s.pk.generators, (P.order : Int) • g.val = 0)
    (hh0 : (P.order : Int) • s.pk.h0.val = 0) (hsig : s.signature = some sig) (hms : ms ≠ [])
    (hfit : ms.length + 2 ≤ s.pk.generators.length) (hvalid : sig.verify P s.pk ms = .ok true) {σ : Store}
    (hvals : s.vars.map σ.value = (sig.e :: sig.s :: ms).map some) (hnd : s.own.Nodup)
    (hpriv : ∀ x ∈ s.own, x ∉ s.vars) (gen : E) (F : Profile E)
    (hF : ∀ y, y ∈ s.own ∨ y ∈ s.vars → F.occurs (s.spec gen) y)
    (hR : ∀ y, y ∈ s.own ∨ y ∈ s.vars → F.reads (s.spec gen) y)
    (hW : ∀ y ∈ s.own, F.writes (s.spec gen) y) {d : Dict Int} (hd : Told σ d) (hda : ∀ e ∈ d, e.1 ∉ s.own) :
    CanProve F P.order σ d (isDict (s.spec gen)) (s.spec gen) := by
  intro w hw
  have hval : ∀ x ∈ s.vars, w.store.value x = σ.value x := fun x hx =>
    congrArg Prod.snd (hw x (.inl (hR x (.inr hx))))
  have hvals' : s.vars.map w.store.value = (sig.e :: sig.s :: ms).map some := by
    rw [← hvals]; exact List.map_congr_left hval
  obtain ⟨v, w', k, h1, h2, h3, h4⟩ := Props.C44_witness P s sig ms hP hk hord htor hsig hms hfit hvalid w hvals'
    ⟨hnd, hpriv⟩
  obtain ⟨b0, b1, b2, a1, a2, r1, r2, hb0, hb1, hb2, ha1, ha2, rfl, hst⟩ := precommit_form hsig h1
  obtain ⟨a1', a2', g0, g1, g2, gs, ve, vs, vm, e1, e2, hg, hv, hvm, hl, ga1, ga2, rfl⟩ := construct_inv hP hk h2
  have e1' : a1' = a1 := by
    have : (Except.ok (.pt a1) : Except Err (Val E)) = .ok (.pt a1') := e1
    cases this; rfl
  subst e1'
  have i1 : b1 = g1 := by
    unfold bases at hb1
    rw [hg, hv] at hb1
    simpa using hb1.symm
  have i2 : b2 = g2 := by
    unfold bases at hb2
    rw [hg, hv] at hb2
    simp only [List.length_cons] at hb2
    rw [List.getElem?_take_of_lt (by omega)] at hb2
    simpa using hb2.symm
  subst i1; subst i2
  have ta1 : (P.order : Int) • a1'.val = 0 := by
    rw [hg] at htor
    rw [pt_add_of (by
      have := hk.g1
      rw [hg] at this
      simp only [Pt.smul]
      rw [this b1 (by simp), this b2 (by simp)])] at ha1
    cases ha1
    simp only [Pt.smul, smul_add]
    rw [smul_comm, htor b1 (by simp), smul_comm, htor b2 (by simp), smul_zero, smul_zero, add_zero]
  have hsome : ∀ x, x ∈ s.own ∨ x ∈ s.vars → (w'.store.value x).isSome := by
    rintro x (hx | hx)
    · rw [hst]
      simp only [own, List.mem_cons, List.not_mem_nil, or_false] at hx
      simp only [Store.setValue]
      rcases hx with rfl | rfl | rfl | rfl <;> (repeat' split_ifs) <;> simp_all
    · have e : w'.store.value x = w.store.value x := congrArg Prod.snd (h4 x fun hm => hpriv x hm hx)
      rw [e]
      have : w.store.value x ∈ s.vars.map w.store.value := List.mem_map_of_mem hx
      rw [hvals'] at this
      obtain ⟨n, _, hn⟩ := List.mem_map.mp this
      rw [← hn]; rfl
  have htold : Told w'.store d := told_same (told_same hd fun y hy => hw y (.inr hy)) fun y hy => h4 y fun hm => by
    obtain ⟨e, he, rfl⟩ := List.mem_map.mp hy
    exact hda e he hm
  refine ⟨_, w', _, h1, fun y hy => h4 y fun h => hy (hW y h), ?_, h2, .inr rfl, built_solid hk hord hg hl ga1,
    built_torsion hk hg htor hh0 ga1 ta1, built_order hk hg ga1, fun x hx => hF x (built_secrets hv x hx),
    fun x hx => hR x (built_known hv x hx), ?_, composable_orFree built_orFree (built_order hk hg ga1), ⟨⟨_, rfl⟩, rfl⟩⟩
  · rw [hst]; rfl
  · have hs := fun x hx => hsome x (built_secrets (σ := w'.store) (P := P) (a1 := a1') (a2 := a2') (g0 := g0) (g1 := b1)
      (g2 := b2) (gs := gs) hv x hx)
    cases h3 with
    | all _ _ _ hall =>
      refine .all _ fun t ht => ?_
      have ht' := ht
      have hin := hall t ht
      have hs' : ∀ x ∈ secrets t, (w'.store.value x).isSome := by
        intro x hx
        refine hs x ?_
        simp only [built, secrets]
        exact mem_secretsL.mpr ⟨t, ht, hx⟩
      simp only [parts, List.mem_cons, List.not_mem_nil, or_false] at ht
      rcases ht with rfl | rfl | rfl <;> exact satisfied_rep htold rfl hs' hin

theorem leafFor {P : Pairing E} {s : BBS E} (hP : s.P = P) (hk : GoodKey P s.pk) (gen gen' : E) (σv : Store)
    (sig : Option (Signature E)) (flag : Bool) (v : Val E) (k k' : Option (Core E)) (flag' : Bool)
    (v' : Val E) (l l' : Option (Core E)) :
    LeafFor σv (.ext ⟨({ s with signature := sig } : BBS E).spec gen', flag, v, k, k'⟩)
      (.ext ⟨s.spec gen, flag', v', l, l'⟩) := by
  refine ⟨rfl, rfl, fun σ v k hc => ?_⟩
  have hc' : s.construct σ v = .ok k := hc
  obtain ⟨a1, a2, g0, g1, g2, gs, ve, vs, vm, e1, e2, hg, hv, hvm, hl, ga1, ga2, rfl⟩ := construct_inv hP hk hc'
  exact ⟨_, construct_of (s := { s with signature := sig }) hP hk e1 e2 hg hv hvm hl ga1 ga2, rfl, rfl⟩

end Zksk.BBS
