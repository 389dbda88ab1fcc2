import Verif.Lemmas.Codec
import Verif.Examples

/-! A concrete encoding, for the examples: it shows that the assumptions on the external coders can be met. -/

set_option linter.unusedSectionVars false

namespace Zksk.Ex

open Spec

/-- A number, in unary. -/
def u (n : Nat) : List UInt8 := List.replicate n 1 ++ [0]

theorem u_inj : ∀ {a b : Nat} {x y : List UInt8}, u a ++ x = u b ++ y → a = b ∧ x = y
  | 0, 0, x, y, h => by simpa [u] using h
  | 0, b + 1, x, y, h => by simp [u, List.replicate_succ] at h
  | a + 1, 0, x, y, h => by simp [u, List.replicate_succ] at h
  | a + 1, b + 1, x, y, h => by
    have : u a ++ x = u b ++ y := by
      simpa [u, List.replicate_succ] using h
    obtain ⟨rfl, h2⟩ := u_inj this
    exact ⟨rfl, h2⟩

theorem us_inj : ∀ {a b : List Nat} {x y : List UInt8}, a.length = b.length →
    a.flatMap u ++ x = b.flatMap u ++ y → a = b ∧ x = y
  | [], [], x, y, _, h => by simpa using h
  | [], _ :: _, x, y, hl, h => by simp at hl
  | _ :: _, [], x, y, hl, h => by simp at hl
  | a :: as, b :: bs, x, y, hl, h => by
    simp only [List.flatMap_cons, List.append_assoc] at h
    replace h := u_inj h
    obtain ⟨rfl, h⟩ := h
    replace h := us_inj (by simpa using hl) h
    obtain ⟨rfl, h⟩ := h
    exact ⟨rfl, h⟩

/-- Numbers. -/
def ns (l : List Nat) : List UInt8 := u l.length ++ l.flatMap u

theorem ns_inj {a b : List Nat} {x y : List UInt8} (h : ns a ++ x = ns b ++ y) : a = b ∧ x = y := by
  simp only [ns, List.append_assoc] at h
  replace h := u_inj h
  obtain ⟨hl, h⟩ := h
  exact us_inj hl h

/-- A string. -/
def st (s : String) : List UInt8 := ns (s.toList.map Char.toNat)

theorem st_inj {a b : String} {x y : List UInt8} (h : st a ++ x = st b ++ y) : a = b ∧ x = y := by
  obtain ⟨h1, h2⟩ := ns_inj h
  refine ⟨?_, h2⟩
  have : Function.Injective Char.toNat := fun c d e => Char.ext (UInt32.toNat_inj.mp e)
  exact String.toList_inj.mp ((List.map_injective_iff.mpr this) h1)

/-- An integer. -/
def it (k : Int) : List UInt8 := u (if k < 0 then 1 else 0) ++ u k.natAbs

theorem it_inj {a b : Int} {x y : List UInt8} (h : it a ++ x = it b ++ y) : a = b ∧ x = y := by
  simp only [it, List.append_assoc] at h
  replace h := u_inj h
  obtain ⟨h1, h⟩ := h
  obtain ⟨h2, h⟩ := u_inj h
  refine ⟨?_, h⟩
  split at h1 <;> split at h1 <;> omega

/-- Groups whose elements have numbers. -/
class Numbered (E : Type) where
  /-- The number of an element. -/
  num : E → Nat
  inj : Function.Injective num

instance {p : Nat} [NeZero p] : Numbered (ZMod p) := ⟨ZMod.val, ZMod.val_injective p⟩

instance {E F : Type} [Numbered E] [Numbered F] : Numbered (E × F) :=
  ⟨fun z => Nat.pair (Numbered.num z.1) (Numbered.num z.2), fun a b h => by
    have h := Nat.pair_eq_pair.mp h
    exact Prod.ext (Numbered.inj h.1) (Numbered.inj h.2)⟩

variable {E : Type} [Numbered E]

/-- A point. -/
def pt (z : Pt E) : List UInt8 := ns [z.grp.gid, z.grp.order, if z.grp.strict then 1 else 0, Numbered.num z.val]

theorem pt_inj {a b : Pt E} {x y : List UInt8} (h : pt a ++ x = pt b ++ y) : a = b ∧ x = y := by
  obtain ⟨h1, h2⟩ := ns_inj h
  refine ⟨?_, h2⟩
  obtain ⟨⟨g1, o1, s1⟩, v1⟩ := a
  obtain ⟨⟨g2, o2, s2⟩, v2⟩ := b
  simp only [List.cons.injEq, and_true] at h1
  obtain ⟨rfl, rfl, h3, h4⟩ := h1
  have := Numbered.inj h4
  subst this
  cases s1 <;> cases s2 <;> simp_all

mutual
/-- Values. -/
def enc : Val E → List UInt8
  | .none => u 0
  | .int k => u 1 ++ it k
  | .pt z => u 2 ++ pt z
  | .str s => u 3 ++ st s
  | .bytes b => u 4 ++ ns (b.map UInt8.toNat)
  | .list l => u 5 ++ (u l.length ++ encL l)
  | .tuple l => u 6 ++ (u l.length ++ encL l)
  | .dict l => u 7 ++ (u l.length ++ encD l)
/-- Lists. -/
def encL : List (Val E) → List UInt8
  | [] => []
  | v :: l => enc v ++ encL l
/-- Dictionaries. -/
def encD : List (String × Val E) → List UInt8
  | [] => []
  | (k, v) :: l => st k ++ (enc v ++ encD l)
end

mutual
theorem enc_inj : ∀ (a b : Val E) (x y : List UInt8), enc a ++ x = enc b ++ y → a = b ∧ x = y
  | .none, b, x, y, h => by
    cases b <;> simp only [enc, List.append_assoc] at h <;> replace h := u_inj h <;> obtain ⟨h0, h⟩ := h <;> try cases h0
    exact ⟨rfl, h⟩
  | .int k, b, x, y, h => by
    cases b <;> simp only [enc, List.append_assoc] at h <;> replace h := u_inj h <;> obtain ⟨h0, h⟩ := h <;> try cases h0
    replace h := it_inj h
    obtain ⟨rfl, h⟩ := h
    exact ⟨rfl, h⟩
  | .pt z, b, x, y, h => by
    cases b <;> simp only [enc, List.append_assoc] at h <;> replace h := u_inj h <;> obtain ⟨h0, h⟩ := h <;> try cases h0
    replace h := pt_inj h
    obtain ⟨rfl, h⟩ := h
    exact ⟨rfl, h⟩
  | .str s, b, x, y, h => by
    cases b <;> simp only [enc, List.append_assoc] at h <;> replace h := u_inj h <;> obtain ⟨h0, h⟩ := h <;> try cases h0
    replace h := st_inj h
    obtain ⟨rfl, h⟩ := h
    exact ⟨rfl, h⟩
  | .bytes s, b, x, y, h => by
    cases b <;> simp only [enc, List.append_assoc] at h <;> replace h := u_inj h <;> obtain ⟨h0, h⟩ := h <;> try cases h0
    replace h := ns_inj h
    obtain ⟨h1, h⟩ := h
    have : Function.Injective UInt8.toNat := fun c d e => UInt8.toNat_inj.mp e
    have := (List.map_injective_iff.mpr this) h1
    subst this
    exact ⟨rfl, h⟩
  | .list l, b, x, y, h => by
    cases b <;> simp only [enc, List.append_assoc] at h <;> replace h := u_inj h <;> obtain ⟨h0, h⟩ := h <;> try cases h0
    replace h := u_inj h
    obtain ⟨hl, h⟩ := h
    replace h := encL_inj l _ x y hl h
    obtain ⟨rfl, h⟩ := h
    exact ⟨rfl, h⟩
  | .tuple l, b, x, y, h => by
    cases b <;> simp only [enc, List.append_assoc] at h <;> replace h := u_inj h <;> obtain ⟨h0, h⟩ := h <;> try cases h0
    replace h := u_inj h
    obtain ⟨hl, h⟩ := h
    replace h := encL_inj l _ x y hl h
    obtain ⟨rfl, h⟩ := h
    exact ⟨rfl, h⟩
  | .dict l, b, x, y, h => by
    cases b <;> simp only [enc, List.append_assoc] at h <;> replace h := u_inj h <;> obtain ⟨h0, h⟩ := h <;> try cases h0
    replace h := u_inj h
    obtain ⟨hl, h⟩ := h
    replace h := encD_inj l _ x y hl h
    obtain ⟨rfl, h⟩ := h
    exact ⟨rfl, h⟩
theorem encL_inj : ∀ (a b : List (Val E)) (x y : List UInt8), a.length = b.length →
    encL a ++ x = encL b ++ y → a = b ∧ x = y
  | [], b, x, y, hl, h => by
    cases b with
    | nil => exact ⟨rfl, by simpa [encL] using h⟩
    | cons _ _ => simp at hl
  | v :: l, b, x, y, hl, h => by
    cases b with
    | nil => simp at hl
    | cons w m =>
      simp only [encL, List.append_assoc] at h
      replace h := enc_inj v w _ _ h
      obtain ⟨rfl, h⟩ := h
      replace h := encL_inj l m x y (by simpa using hl) h
      obtain ⟨rfl, h⟩ := h
      exact ⟨rfl, h⟩
theorem encD_inj : ∀ (a b : List (String × Val E)) (x y : List UInt8), a.length = b.length →
    encD a ++ x = encD b ++ y → a = b ∧ x = y
  | [], b, x, y, hl, h => by
    cases b with
    | nil => exact ⟨rfl, by simpa [encD] using h⟩
    | cons _ _ => simp at hl
  | (k, v) :: l, b, x, y, hl, h => by
    cases b with
    | nil => simp at hl
    | cons w m =>
      obtain ⟨k', w⟩ := w
      simp only [encD, List.append_assoc] at h
      replace h := st_inj h
      obtain ⟨rfl, h⟩ := h
      replace h := enc_inj v w _ _ h
      obtain ⟨rfl, h⟩ := h
      replace h := encD_inj l m x y (by simpa using hl) h
      obtain ⟨rfl, h⟩ := h
      exact ⟨rfl, h⟩
end

/-- Lists of points. -/
def pts : List (Pt E) → List UInt8
  | [] => u 0
  | z :: l => u 1 ++ (pt z ++ pts l)

theorem pts_inj : ∀ (a b : List (Pt E)) (x y : List UInt8), pts a ++ x = pts b ++ y → a = b ∧ x = y
  | [], b, x, y, h => by
    cases b <;> simp only [pts, List.append_assoc] at h <;> replace h := u_inj h <;> obtain ⟨h0, h⟩ := h <;> try cases h0
    exact ⟨rfl, h⟩
  | z :: l, b, x, y, h => by
    cases b <;> simp only [pts, List.append_assoc] at h <;> replace h := u_inj h <;> obtain ⟨h0, h⟩ := h <;> try cases h0
    replace h := pt_inj h
    obtain ⟨rfl, h⟩ := h
    replace h := pts_inj l _ x y h
    obtain ⟨rfl, h⟩ := h
    exact ⟨rfl, h⟩

mutual
/-- Identifiers. -/
def encId : PId E → List UInt8
  | .dlrep bases ids lhs => u 0 ++ (pts bases ++ (ns ids ++ pt lhs))
  | .comp cls subs => u 1 ++ (st cls ++ encIds subs)
  | .ext cls v inner => u 2 ++ (st cls ++ (enc v ++ encId inner))
/-- Lists of identifiers. -/
def encIds : List (PId E) → List UInt8
  | [] => u 0
  | z :: l => u 1 ++ (encId z ++ encIds l)
end

mutual
theorem encId_inj : ∀ (a b : PId E) (x y : List UInt8), encId a ++ x = encId b ++ y → a = b ∧ x = y
  | .dlrep bases ids lhs, b, x, y, h => by
    cases b <;> simp only [encId, List.append_assoc] at h <;> replace h := u_inj h <;> obtain ⟨h0, h⟩ := h <;> try cases h0
    replace h := pts_inj _ _ _ _ h
    obtain ⟨rfl, h⟩ := h
    replace h := ns_inj h
    obtain ⟨rfl, h⟩ := h
    replace h := pt_inj h
    obtain ⟨rfl, h⟩ := h
    exact ⟨rfl, h⟩
  | .comp cls subs, b, x, y, h => by
    cases b <;> simp only [encId, List.append_assoc] at h <;> replace h := u_inj h <;> obtain ⟨h0, h⟩ := h <;> try cases h0
    replace h := st_inj h
    obtain ⟨rfl, h⟩ := h
    replace h := encIds_inj subs _ _ _ h
    obtain ⟨rfl, h⟩ := h
    exact ⟨rfl, h⟩
  | .ext cls v inner, b, x, y, h => by
    cases b <;> simp only [encId, List.append_assoc] at h <;> replace h := u_inj h <;> obtain ⟨h0, h⟩ := h <;> try cases h0
    replace h := st_inj h
    obtain ⟨rfl, h⟩ := h
    replace h := enc_inj _ _ _ _ h
    obtain ⟨rfl, h⟩ := h
    replace h := encId_inj inner _ _ _ h
    obtain ⟨rfl, h⟩ := h
    exact ⟨rfl, h⟩
theorem encIds_inj : ∀ (a b : List (PId E)) (x y : List UInt8), encIds a ++ x = encIds b ++ y → a = b ∧ x = y
  | [], b, x, y, h => by
    cases b <;> simp only [encIds, List.append_assoc] at h <;> replace h := u_inj h <;> obtain ⟨h0, h⟩ := h <;> try cases h0
    exact ⟨rfl, h⟩
  | z :: l, b, x, y, h => by
    cases b <;> simp only [encIds, List.append_assoc] at h <;> replace h := u_inj h <;> obtain ⟨h0, h⟩ := h <;> try cases h0
    replace h := encId_inj z _ _ _ h
    obtain ⟨rfl, h⟩ := h
    replace h := encIds_inj l _ x y h
    obtain ⟨rfl, h⟩ := h
    exact ⟨rfl, h⟩
end

/-- External functions with these encodings, where the hash is the identity; the challenge is constant. -/
def fullEnv (c : Int) : Env (ZMod 7) where
  sha b := b
  toInt _ := c
  idBytes := encId
  encode v := enc (content v)
  utf8 := st

theorem fullEnv_encode (c : Int) (a b : Val (ZMod 7)) (x y : List UInt8)
    (h : (fullEnv c).encode a ++ x = (fullEnv c).encode b ++ y) : content a = content b :=
  (enc_inj _ _ _ _ h).1

/-- Lists of byte strings. -/
def pk : List (List UInt8) → List UInt8
  | [] => u 0
  | b :: l => u 1 ++ (ns (b.map UInt8.toNat) ++ pk l)

theorem pk_inj : ∀ (a b : List (List UInt8)), pk a = pk b → a = b
  | [], b, h => by
    cases b with
    | nil => rfl
    | cons c l =>
      have h : u 0 ++ [] = u 1 ++ (ns (c.map UInt8.toNat) ++ pk l) := by simpa [pk] using h
      cases (u_inj h).1
  | p :: l, b, h => by
    cases b with
    | nil =>
      have h : u 1 ++ (ns (p.map UInt8.toNat) ++ pk l) = u 0 ++ [] := by simpa [pk] using h
      cases (u_inj h).1
    | cons c m =>
      simp only [pk] at h
      replace h := u_inj h
      obtain ⟨_, h⟩ := h
      replace h := ns_inj h
      obtain ⟨h1, h⟩ := h
      have hi : Function.Injective UInt8.toNat := fun c d e => UInt8.toNat_inj.mp e
      rw [(List.map_injective_iff.mpr hi) h1, pk_inj l m h]

open Classical in
/-- The decoders. -/
noncomputable def codec : Codec (ZMod 7) where
  decode n b := if h : ∃ v, (fullEnv 0).encode v = b then .ok (reread n h.choose) else .error .foreign
  packb := pk
  unpackb b := if h : ∃ l, pk l = b then .ok h.choose else .error .foreign

theorem faithful (c : Int) : Faithful (fullEnv c) codec := by
  constructor
  · intro n v
    have h : ∃ v', (fullEnv 0).encode v' = (fullEnv c).encode v := ⟨v, rfl⟩
    simp only [codec]
    rw [dif_pos h, reread_content (by
      have := h.choose_spec
      exact (enc_inj _ _ [] [] (by simpa [fullEnv] using this)).1)]
  · intro l
    have h : ∃ l', pk l' = pk l := ⟨l, rfl⟩
    simp only [codec]
    rw [dif_pos h, pk_inj _ _ h.choose_spec]

end Zksk.Ex
