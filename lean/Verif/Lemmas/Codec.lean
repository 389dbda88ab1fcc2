import Verif.SpecCodec
import Verif.Lemmas.Accept

/-! Lemmas about serialization. -/

set_option linter.unusedSectionVars false

namespace Zksk

open Spec

variable {E : Type} [AddCommGroup E] [DecidableEq E]

private instance : Nonempty (Val E) := ⟨.none⟩

theorem deserialize_serialize {env : Env E} {cd : Codec E} (h : Faithful env cd) (n : Nat) (nizk : NIZK E) :
    NIZK.deserialize cd n (nizk.serialize env cd) =
      .ok (⟨nizk.challenge, (reread n nizk.responses).1,
        (reread (reread n nizk.responses).2 nizk.precommitment).1, nizk.stmtHash⟩,
        (reread (reread n nizk.responses).2 nizk.precommitment).2) := by
  unfold NIZK.deserialize NIZK.serialize
  rw [h.unpack, bind_ok]
  have hd : ∀ n v bs, cd.decodeAll n (env.encode v :: bs) =
      (do let (vs, m) ← cd.decodeAll (reread n v).2 bs
          .ok ((reread n v).1 :: vs, m)) := by
    intro n v bs
    conv_lhs => unfold Codec.decodeAll
    rw [h.decode, bind_ok]
  have h0 : ∀ n, cd.decodeAll n [] = .ok ([], n) := fun n => rfl
  simp only [hd, h0, bind_ok, reread]

mutual
theorem reread_portable (n : Nat) : ∀ v : Val E, Portable v → reread n v = (v, n)
  | .pt p, h => by simp only [Portable] at h; simp [reread, rereadPt, h]
  | .list l, h => by simp only [Portable] at h; simp [reread, rereadL_portable n l h]
  | .tuple l, h => by simp [Portable] at h
  | .dict l, h => by simp only [Portable] at h; simp [reread, rereadD_portable n l h]
  | .none, _ => rfl
  | .int k, _ => rfl
  | .str s, _ => rfl
  | .bytes b, _ => rfl
theorem rereadL_portable (n : Nat) : ∀ l : List (Val E), PortableL l → rereadL n l = (l, n)
  | [], _ => rfl
  | v :: l, h => by
    simp only [PortableL] at h
    simp [rereadL, reread_portable n v h.1, rereadL_portable n l h.2]
theorem rereadD_portable (n : Nat) : ∀ l : List (String × Val E), PortableD l → rereadD n l = (l, n)
  | [], _ => rfl
  | (k, v) :: l, h => by
    simp only [PortableD] at h
    simp [rereadD, reread_portable n v h.1, rereadD_portable n l h.2]
end

theorem rereadPt_content (n : Nat) (p : Pt E) : rereadPt n
    (if p.grp.strict then p else ⟨⟨p.grp.gid % 3, p.grp.order, false⟩, p.val⟩) = rereadPt n p := by
  unfold rereadPt
  cases h : p.grp.strict <;> simp [h]

mutual
theorem reread_content' (n : Nat) : ∀ v : Val E, reread n (content v) = reread n v
  | .pt p => by simp only [content, reread, rereadPt_content]
  | .list l => by simp only [content, reread, rereadL_content' n l]
  | .tuple l => by simp only [content, reread, rereadL_content' n l]
  | .dict l => by simp only [content, reread, rereadD_content' n l]
  | .none => rfl
  | .int k => rfl
  | .str s => rfl
  | .bytes b => rfl
theorem rereadL_content' (n : Nat) : ∀ l : List (Val E), rereadL n (contentL l) = rereadL n l
  | [] => rfl
  | v :: l => by simp only [contentL, rereadL, reread_content' n v, rereadL_content' _ l]
theorem rereadD_content' (n : Nat) : ∀ l : List (String × Val E), rereadD n (contentD l) = rereadD n l
  | [] => rfl
  | (k, v) :: l => by simp only [contentD, rereadD, reread_content' n v, rereadD_content' _ l]
end

theorem reread_content {n : Nat} {v w : Val E} (h : content v = content w) : reread n v = reread n w := by
  rw [← reread_content' n v, h, reread_content']

mutual
theorem reread_le : ∀ (n : Nat) (v : Val E), n ≤ (reread n v).2
  | n, .pt p => by simp only [reread, rereadPt]; split <;> simp
  | n, .list l => by simp only [reread]; exact rereadL_le n l
  | n, .tuple l => by simp only [reread]; exact rereadL_le n l
  | n, .dict l => by simp only [reread]; exact rereadD_le n l
  | n, .none => le_refl _
  | n, .int _ => le_refl _
  | n, .str _ => le_refl _
  | n, .bytes _ => le_refl _
theorem rereadL_le : ∀ (n : Nat) (l : List (Val E)), n ≤ (rereadL n l).2
  | _, [] => le_refl _
  | n, v :: l => by simp only [rereadL]; exact (reread_le n v).trans (rereadL_le _ l)
theorem rereadD_le : ∀ (n : Nat) (l : List (String × Val E)), n ≤ (rereadD n l).2
  | _, [] => le_refl _
  | n, (k, v) :: l => by simp only [rereadD]; exact (reread_le n v).trans (rereadD_le _ l)
end

theorem reread_pt {n : Nat} {v : Val E} {p : Pt E} (h : (reread n v).1 = .pt p) :
    p.grp.strict = true ∨ 3 * n ≤ p.grp.gid := by
  cases v <;> simp only [reread] at h <;> cases h
  unfold rereadPt
  split
  · next h => exact .inl h
  · exact .inr (Nat.le_add_right _ _)

theorem rereadD_lookup : ∀ (n : Nat) (l : List (String × Val E)) (x : String) (a : Val E),
    (rereadD n l).1.lookup x = some a → ∃ m v, n ≤ m ∧ a = (reread m v).1
  | n, [], x, a, h => by simp [rereadD] at h
  | n, (k, v) :: l, x, a, h => by
    simp only [rereadD, List.lookup_cons] at h
    split at h
    · cases h; exact ⟨n, v, le_refl _, rfl⟩
    · obtain ⟨m, v', hm, rfl⟩ := rereadD_lookup _ l x a h
      exact ⟨m, v', (reread_le n v).trans hm, rfl⟩

/-- A point in a decoded dictionary is in a `petlib` group or in a group made by decoding. -/
theorem reread_lookup {n : Nat} {v : Val E} {x : String} {p : Pt E} (h : (reread n v).1.lookup x = .ok (.pt p)) :
    p.grp.strict = true ∨ 3 * n ≤ p.grp.gid := by
  cases v <;> simp only [reread, Val.lookup] at h <;> try cases h
  split at h
  · next a ha =>
    cases h
    obtain ⟨m, v', hm, hp⟩ := rereadD_lookup _ _ _ _ ha
    rcases reread_pt hp.symm with h | h
    · exact .inl h
    · exact .inr ((Nat.mul_le_mul_left 3 hm).trans h)
  · cases h

/-- `v'` is what some decoding makes of `v`. -/
def Reread (v v' : Val E) : Prop := ∃ n, v' = (reread n v).1

theorem rereadL_get : ∀ (n : Nat) (l : List (Val E)) (i : Nat) (a : Val E), l[i]? = some a →
    ∃ a', (rereadL n l).1[i]? = some a' ∧ Reread a a'
  | n, [], i, a, h => by simp at h
  | n, v :: l, 0, a, h => by
    simp only [List.getElem?_cons_zero, Option.some.injEq] at h
    subst h
    exact ⟨_, rfl, n, rfl⟩
  | n, v :: l, i + 1, a, h => by
    simp only [List.getElem?_cons_succ] at h
    simp only [rereadL, List.getElem?_cons_succ]
    exact rereadL_get _ l i a h

theorem rereadL_length : ∀ (n : Nat) (l : List (Val E)), (rereadL n l).1.length = l.length
  | _, [] => rfl
  | n, v :: l => by simp [rereadL, rereadL_length _ l]

theorem rereadL_ints : ∀ (n : Nat) (ws : List Int), rereadL n (ws.map (Val.int (E := E))) = (ws.map .int, n)
  | _, [] => rfl
  | n, w :: ws => by simp [rereadL, reread, rereadL_ints n ws]

theorem rereadL_take : ∀ (n k : Nat) (l : List (Val E)), (rereadL n l).1.take k = (rereadL n (l.take k)).1
  | _, 0, _ => by simp [rereadL]
  | _, k + 1, [] => rfl
  | n, k + 1, v :: l => by simp [rereadL, rereadL_take _ k l]

theorem rereadD_keys : ∀ (n : Nat) (l : List (String × Val E)), (rereadD n l).1.map Prod.fst = l.map Prod.fst
  | _, [] => rfl
  | n, (k, v) :: l => by simp [rereadD, rereadD_keys _ l]

theorem reread_int {k : Int} {v' : Val E} (h : Reread (.int k) v') : v' = .int k := by
  obtain ⟨n, rfl⟩ := h; rfl

theorem reread_ints {ws : List Int} {v' : Val E} (h : Reread (.list (ws.map .int)) v') : v' = .list (ws.map .int) := by
  obtain ⟨n, rfl⟩ := h
  simp [reread, rereadL_ints]

theorem reread_index {v v' a : Val E} {i : Nat} (h : Reread v v') (hi : v.index i = .ok a) :
    ∃ a', v'.index i = .ok a' ∧ Reread a a' := by
  obtain ⟨n, rfl⟩ := h
  cases v with
  | list l | tuple l =>
    simp only [Val.index] at hi
    cases hl : l[i]? with
    | none => simp [hl] at hi
    | some b =>
      simp only [hl, Except.ok.injEq] at hi
      subst hi
      obtain ⟨a', h1, h2⟩ := rereadL_get n l i b hl
      exact ⟨a', by simp [reread, Val.index, h1], h2⟩
  | bytes b =>
    refine ⟨a, hi, 0, ?_⟩
    simp only [Val.index] at hi
    cases hl : b[i]? with
    | none => simp [hl] at hi
    | some x =>
      simp only [hl, Except.ok.injEq] at hi
      subst hi; rfl
  | none | int _ | pt _ | str _ | dict _ => simp [Val.index] at hi

/-- Iterating over a decoded value. -/
theorem reread_elems {v v' : Val E} {l : List (Val E)} (h : Reread v v') (hl : v.elems = .ok l) :
    ∃ n, v'.elems = .ok (rereadL n l).1 := by
  obtain ⟨n, rfl⟩ := h
  cases v with
  | list l' | tuple l' =>
    simp only [Val.elems, Except.ok.injEq] at hl
    subst hl
    exact ⟨n, rfl⟩
  | bytes b =>
    simp only [Val.elems, Except.ok.injEq] at hl
    subst hl
    refine ⟨0, ?_⟩
    have : b.map (fun x => Val.int (E := E) x.toNat) = (b.map fun x => (x.toNat : Int)).map .int := by simp
    rw [this, rereadL_ints, ← this]
    rfl
  | dict d =>
    simp only [Val.elems, Except.ok.injEq] at hl
    subst hl
    refine ⟨0, ?_⟩
    have key : ∀ (n : Nat) (ks : List String), rereadL n (ks.map (Val.str (E := E))) = (ks.map .str, n) := by
      intro n ks
      induction ks generalizing n with
      | nil => rfl
      | cons k ks ih => simp [rereadL, reread, ih]
    have e : ∀ d : List (String × Val E), d.map (fun e => Val.str (E := E) e.1) = (d.map Prod.fst).map .str := by
      intro d; simp
    rw [e, key]
    simp only [reread, Val.elems]
    rw [e, rereadD_keys]
  | none | int _ | pt _ | str _ => simp [Val.elems] at hl

/-- Decoding keeps the verification equations. -/
theorem eqns_reread {k : Core E} {c : Int} {r com : Val E} (h : Eqns k c r com) :
    ∀ r', Reread r r' → Eqns k c r' com := by
  induction h with
  | rep s c r vs ws hr hlen hws hgrp =>
    intro r' hr'
    obtain ⟨n, hn⟩ := reread_elems hr' hr
    refine .rep s c r' _ ws hn (fun hs => by rw [rereadL_length]; exact hlen hs) ?_ hgrp
    rw [rereadL_take, hws, rereadL_ints]
  | all sim subs c r coms ri hlen hri h ih =>
    intro r' hr'
    choose! f hf using fun i (hi : i < subs.length) => reread_index hr' (hri i hi)
    refine .all sim subs c r' coms f hlen (fun i hi => (hf i hi).1) fun i t com ht hc => ?_
    exact ih i t com ht hc _ (hf i (List.getElem?_eq_some_iff.mp ht).1).2
  | any sim subs c r rs cs coms ri hcs hrs hsum hlen hlen' hri h ih =>
    intro r' hr'
    obtain ⟨v0, h0, h0'⟩ := reread_index hr' hcs
    obtain ⟨rs', h1, h1'⟩ := reread_index hr' hrs
    choose! f hf using fun i (hi : i < subs.length) => reread_index h1' (hri i hi)
    refine .any sim subs c r' rs' cs coms f ?_ h1 hsum hlen hlen' (fun i hi => (hf i hi).1)
      fun i t com ci ht hc hci => ?_
    · rw [h0, reread_ints h0']
    · exact ih i t com ci ht hc hci _ (hf i (List.getElem?_eq_some_iff.mp ht).1).2

theorem wellFormedL_get {ks : List (Core E)} (h : WellFormedL ks) {i : Nat} {k : Core E} (hi : ks[i]? = some k) :
    WellFormed k := by
  induction ks generalizing i with
  | nil => simp at hi
  | cons a ks ih =>
    simp only [WellFormedL] at h
    cases i with
    | zero => simp at hi; subst hi; exact h.1
    | succ i => exact ih h.2 (by simpa using hi)

/-- Responses that are integers. -/
theorem elems_index {v : Val E} {l : List (Val E)} (h : v.elems = .ok l) {i : Nat} {a : Val E}
    (hi : v.index i = .ok a) : l[i]? = some a := by
  cases v with
  | list l' | tuple l' =>
    simp only [Val.elems, Except.ok.injEq] at h
    subst h
    simp only [Val.index] at hi
    cases hl : l'[i]? <;> simp [hl] at hi
    simp [hi]
  | bytes b =>
    simp only [Val.elems, Except.ok.injEq] at h
    subst h
    simp only [Val.index] at hi
    cases hl : b[i]? <;> simp [hl] at hi
    simp [hl, hi]
  | none | int _ | pt _ | str _ | dict _ => simp [Val.index] at hi

/-- Decoding keeps the agreement of responses. -/
theorem agree_reread {σ : Store} {k : Core E} {r : Val E} {ρ : Key → Val E} (h : Agree σ k r ρ) :
    WellFormed k → ∀ c com r', Eqns k c r com → Reread r r' → Agree σ k r' ρ := by
  induction h with
  | rep s r ρ h =>
    intro hw c com r' he hr'
    simp only [WellFormed] at hw
    refine .rep s r' ρ fun i x hx => ?_
    have hi := h i x hx
    obtain ⟨a', h1, h2⟩ := reread_index hr' hi
    have hlt : i < s.bases.length := hw ▸ (List.getElem?_eq_some_iff.mp hx).1
    cases he with
    | rep _ _ _ vs ws hr hlen hws hgrp =>
      have h3 := elems_index hr hi
      have h4 : (vs.take s.bases.length)[i]? = some (ρ (σ.key x)) := by rw [List.getElem?_take_of_lt hlt]; exact h3
      rw [hws] at h4
      obtain ⟨w, _, hw'⟩ := List.mem_map.mp (List.mem_of_getElem? h4)
      rw [← hw'] at h2 ⊢
      rw [h1, reread_int h2]
  | all sim subs r ρ ri hri h ih =>
    intro hw c com r' he hr'
    simp only [WellFormed] at hw
    choose! f hf using fun i (hi : i < subs.length) => reread_index hr' (hri i hi)
    refine .all sim subs r' ρ f (fun i hi => (hf i hi).1) fun i t ht => ?_
    have hi := (List.getElem?_eq_some_iff.mp ht).1
    cases he with
    | all _ _ _ _ coms ri' hlen hri' h' =>
      obtain ⟨com, hcom⟩ : ∃ com, coms[i]? = some com := ⟨_, List.getElem?_eq_getElem (by omega)⟩
      have e : ri' i = ri i := by
        have := (hri' i hi).symm.trans (hri i hi)
        exact Except.ok.inj this
      exact ih i t ht (wellFormedL_get hw.2 ht) _ _ _ (e ▸ h' i t com ht hcom) (hf i hi).2
  | any sim subs r rs ρ ri ρi hrs hri h ih =>
    intro hw c com r' he hr'
    simp only [WellFormed] at hw
    cases he with
    | any _ _ _ _ rs' cs coms ri' hcs hrs' hsum hlen hlen' hri' h' =>
      obtain ⟨rs2, h1, h1'⟩ := reread_index hr' hrs'
      have e0 : rs' = rs := Except.ok.inj (hrs'.symm.trans (hrs hw.1))
      subst e0
      choose! f hf using fun i (hi : i < subs.length) => reread_index h1' (hri i hi)
      refine .any sim subs r' rs2 ρ f ρi (fun _ => h1) (fun i hi => (hf i hi).1) fun i t ht => ?_
      have hi := (List.getElem?_eq_some_iff.mp ht).1
      obtain ⟨com, hcom⟩ : ∃ com, coms[i]? = some com := ⟨_, List.getElem?_eq_getElem (by omega)⟩
      obtain ⟨ci, hci⟩ : ∃ ci, cs[i]? = some ci := ⟨_, List.getElem?_eq_getElem (by omega)⟩
      have e : ri' i = ri i := Except.ok.inj ((hri' i hi).symm.trans (hri i hi))
      exact ih i t ht (wellFormedL_get hw.2 ht) _ _ _ (e ▸ h' i t com ci ht hcom hci) (hf i hi).2

theorem rereadL_get' : ∀ (n : Nat) (l : List (Val E)) (i : Nat) (a' : Val E), (rereadL n l).1[i]? = some a' →
    ∃ a, l[i]? = some a ∧ Reread a a'
  | n, [], i, a, h => by simp [rereadL] at h
  | n, v :: l, 0, a, h => by
    simp only [rereadL, List.getElem?_cons_zero, Option.some.injEq] at h
    exact ⟨v, rfl, n, h.symm⟩
  | n, v :: l, i + 1, a, h => by
    simp only [rereadL, List.getElem?_cons_succ] at h
    simpa using rereadL_get' _ l i a h

theorem reread_index' {v v' a' : Val E} {i : Nat} (h : Reread v v') (hi : v'.index i = .ok a') :
    ∃ a, v.index i = .ok a ∧ Reread a a' := by
  obtain ⟨n, rfl⟩ := h
  cases v with
  | list l | tuple l =>
    simp only [reread, Val.index] at hi
    cases hl : (rereadL n l).1[i]? with
    | none => simp [hl] at hi
    | some b =>
      simp only [hl, Except.ok.injEq] at hi
      subst hi
      obtain ⟨a, h1, h2⟩ := rereadL_get' n l i b hl
      exact ⟨a, by simp [Val.index, h1], h2⟩
  | bytes b =>
    refine ⟨a', hi, 0, ?_⟩
    simp only [reread, Val.index] at hi
    cases hl : b[i]? with
    | none => simp [hl] at hi
    | some x =>
      simp only [hl, Except.ok.injEq] at hi
      subst hi; rfl
  | none | int _ | pt _ | str _ | dict _ => simp [reread, Val.index] at hi

theorem int_of_reread {v : Val E} {k : Int} (h : Reread v (.int k)) : v = .int k := by
  obtain ⟨n, h⟩ := h
  cases v <;> simp [reread] at h ⊢
  exact h.symm

theorem ints_of_rereadL : ∀ (n : Nat) (l : List (Val E)) (ws : List Int), (rereadL n l).1 = ws.map .int → l = ws.map .int
  | n, [], ws, h => by
    cases ws with
    | nil => rfl
    | cons _ _ => simp [rereadL] at h
  | n, v :: l, ws, h => by
    cases ws with
    | nil => simp [rereadL] at h
    | cons w ws =>
      simp only [rereadL, List.map_cons, List.cons.injEq] at h ⊢
      exact ⟨int_of_reread ⟨n, h.1.symm⟩, ints_of_rereadL _ l ws h.2⟩

theorem ints_of_reread {v : Val E} {ws : List Int} (h : Reread v (.list (ws.map .int))) :
    v = .list (ws.map .int) ∨ v = .tuple (ws.map .int) := by
  obtain ⟨n, h⟩ := h
  cases v with
  | list l =>
    simp only [reread, Val.list.injEq] at h
    exact .inl (by rw [ints_of_rereadL n l ws h.symm])
  | tuple l =>
    simp only [reread, Val.list.injEq] at h
    exact .inr (by rw [ints_of_rereadL n l ws h.symm])
  | none | int _ | pt _ | str _ | dict _ | bytes _ => simp [reread] at h

theorem reread_elems' {v v' : Val E} {l' : List (Val E)} (h : Reread v v') (hl : v'.elems = .ok l') :
    ∃ n l, v.elems = .ok l ∧ l' = (rereadL n l).1 := by
  have : ∃ l, v.elems = .ok l := by
    obtain ⟨n, rfl⟩ := h
    cases v <;> simp [Val.elems, reread] at hl ⊢
  obtain ⟨l, hl0⟩ := this
  obtain ⟨n, hn⟩ := reread_elems h hl0
  exact ⟨n, l, hl0, Except.ok.inj (hl.symm.trans hn)⟩

/-- The equations before decoding. -/
theorem eqns_of_reread {k : Core E} {c : Int} {r' com : Val E} (h : Eqns k c r' com) :
    ∀ r, Reread r r' → ListedChallenges k r → Eqns k c r com := by
  induction h with
  | rep s c r' vs ws hr hlen hws hgrp =>
    intro r hr' _
    obtain ⟨n, l, h1, rfl⟩ := reread_elems' hr' hr
    refine .rep s c r l ws h1 (fun hs => by rw [← hlen hs, rereadL_length]) ?_ hgrp
    rw [rereadL_take] at hws
    exact ints_of_rereadL _ _ _ hws
  | all sim subs c r' coms ri hlen hri h ih =>
    intro r hr' hc
    choose! f hf using fun i (hi : i < subs.length) => reread_index' hr' (hri i hi)
    refine .all sim subs c r coms f hlen (fun i hi => (hf i hi).1) fun i t com ht hcom => ?_
    have hi := (List.getElem?_eq_some_iff.mp ht).1
    cases hc with
    | all _ _ _ hc => exact ih i t com ht hcom _ (hf i hi).2 (hc i t _ ht (hf i hi).1)
  | any sim subs c r' rs cs coms ri hcs hrs hsum hlen hlen' hri h ih =>
    intro r hr' hc
    cases hc with
    | any _ _ _ hc0 hc =>
      obtain ⟨v0, h0, h0'⟩ := reread_index' hr' hcs
      obtain ⟨rs', h1, h1'⟩ := reread_index' hr' hrs
      choose! f hf using fun i (hi : i < subs.length) => reread_index' h1' (hri i hi)
      refine .any sim subs c r rs' cs coms f ?_ h1 hsum hlen hlen' (fun i hi => (hf i hi).1)
        fun i t com ci ht hcom hci => ?_
      · rcases ints_of_reread h0' with rfl | rfl
        · exact h0
        · exact absurd h0 (hc0 _)
      · have hi := (List.getElem?_eq_some_iff.mp ht).1
        exact ih i t com ci ht hcom hci _ (hf i hi).2 (hc i t _ _ ht h1 (hf i hi).1)

/-- The agreement before decoding. -/
theorem agree_of_reread {σ : Store} {k : Core E} {r' : Val E} {ρ : Key → Val E} (h : Agree σ k r' ρ) :
    WellFormed k → ∀ c com r, Eqns k c r' com → Reread r r' → Agree σ k r ρ := by
  induction h with
  | rep s r' ρ h =>
    intro hw c com r he hr'
    simp only [WellFormed] at hw
    refine .rep s r ρ fun i x hx => ?_
    have hi := h i x hx
    obtain ⟨a', h1, h2⟩ := reread_index' hr' hi
    have hlt : i < s.bases.length := hw ▸ (List.getElem?_eq_some_iff.mp hx).1
    cases he with
    | rep _ _ _ vs ws hr hlen hws hgrp =>
      have h3 := elems_index hr hi
      have h4 : (vs.take s.bases.length)[i]? = some (ρ (σ.key x)) := by rw [List.getElem?_take_of_lt hlt]; exact h3
      rw [hws] at h4
      obtain ⟨w, _, hw'⟩ := List.mem_map.mp (List.mem_of_getElem? h4)
      rw [← hw'] at h2 ⊢
      rw [h1, int_of_reread h2]
  | all sim subs r' ρ ri hri h ih =>
    intro hw c com r he hr'
    simp only [WellFormed] at hw
    choose! f hf using fun i (hi : i < subs.length) => reread_index' hr' (hri i hi)
    refine .all sim subs r ρ f (fun i hi => (hf i hi).1) fun i t ht => ?_
    have hi := (List.getElem?_eq_some_iff.mp ht).1
    cases he with
    | all _ _ _ _ coms ri' hlen hri' h' =>
      obtain ⟨com, hcom⟩ : ∃ com, coms[i]? = some com := ⟨_, List.getElem?_eq_getElem (by omega)⟩
      have e : ri' i = ri i := Except.ok.inj ((hri' i hi).symm.trans (hri i hi))
      exact ih i t ht (wellFormedL_get hw.2 ht) _ _ _ (e ▸ h' i t com ht hcom) (hf i hi).2
  | any sim subs r' rs ρ ri ρi hrs hri h ih =>
    intro hw c com r he hr'
    simp only [WellFormed] at hw
    cases he with
    | any _ _ _ _ rs' cs coms ri' hcs hrs' hsum hlen hlen' hri' h' =>
      obtain ⟨rs2, h1, h1'⟩ := reread_index' hr' hrs'
      have e0 : rs' = rs := Except.ok.inj (hrs'.symm.trans (hrs hw.1))
      subst e0
      choose! f hf using fun i (hi : i < subs.length) => reread_index' h1' (hri i hi)
      refine .any sim subs r rs2 ρ f ρi (fun _ => h1) (fun i hi => (hf i hi).1) fun i t ht => ?_
      have hi := (List.getElem?_eq_some_iff.mp ht).1
      obtain ⟨com, hcom⟩ : ∃ com, coms[i]? = some com := ⟨_, List.getElem?_eq_getElem (by omega)⟩
      obtain ⟨ci, hci⟩ : ∃ ci, cs[i]? = some ci := ⟨_, List.getElem?_eq_getElem (by omega)⟩
      have e : ri' i = ri i := Except.ok.inj ((hri' i hi).symm.trans (hri i hi))
      exact ih i t ht (wellFormedL_get hw.2 ht) _ _ _ (e ▸ h' i t com ci ht hcom hci) (hf i hi).2

end Zksk
