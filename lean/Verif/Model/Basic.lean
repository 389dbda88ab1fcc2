import Mathlib.Algebra.Module.Defs
import Mathlib.Algebra.Group.Int.Defs
import Mathlib.Algebra.Module.NatInt

/-!
# Basic data of the zksk model

Everything in this file models the *data* manipulated by `/repo/zksk`: exceptions, group
elements, the dynamically typed Python values found in transcripts, secrets and dictionaries keyed
by secrets.  `petlib`/`bplib` are not part of the repository; the assumptions on them are listed in
`/verif/DESIGN.md` (section "Trusted base").
-/

namespace Zksk

/-- Exceptions as values.  The first group is `zksk/exceptions.py:6-39`, the second one are the
Python built-ins raised by the code, `foreign` is an exception raised inside `petlib`/`bplib`
(e.g. adding points of different groups) and `generic` is a bare `Exception(...)`
(`zksk/primitives/rangeproof.py:29,35`). -/
inductive Err
  | incompleteValues | invalidExpression | inconsistentChallenge | statementMismatch
  | statementSpec | invalidSecrets | groupMismatch | validation
  | valueError | typeError | indexError | keyError | attributeError
  | foreign | generic
  deriving DecidableEq, Repr

/-- A group object (`petlib.ec.EcGroup`, `zksk/pairings.py:35-76` `GTGroup`, `:202-246` `G1Group`).
`gid` identifies the group for `==`; `order` is what `group.order()` returns; `strict` records
whether `wsum` refuses lists of different lengths (`petlib`) or silently truncates
(`zip` in `zksk/pairings.py:72-76,242-246`). -/
structure Grp where
  gid : Nat
  order : Nat
  strict : Bool
  deriving DecidableEq, Repr

/-- A point: the group it says it belongs to (`pt.group`) and its value.  All groups share one
abstract carrier `E` (an arbitrary additive commutative group); a point of another group is a point
with another `grp`. -/
structure Pt (E : Type) where
  grp : Grp
  val : E
  deriving DecidableEq

section
variable {E : Type} [AddCommGroup E]

/-- `group.infinite()` (`zksk/pairings.py:53-56,220-223`). -/
def Grp.inf (g : Grp) : Pt E := ⟨g, 0⟩

/-- `P + Q` (`zksk/pairings.py:111-115,140-141`, `petlib.ec.EcPt.__add__`): an exception of the
library when the groups differ. -/
def Pt.add (p q : Pt E) : Except Err (Pt E) :=
  if p.grp = q.grp then .ok ⟨p.grp, p.val + q.val⟩ else .error .foreign

/-- `n * P` for any integer `n` (`zksk/pairings.py:97-106,146-147`). -/
def Pt.smul (n : Int) (p : Pt E) : Pt E := ⟨p.grp, n • p.val⟩

/-- `P - Q` (`zksk/pairings.py:143-144`). -/
def Pt.sub (p q : Pt E) : Except Err (Pt E) := p.add (Pt.smul (-1) q)

end

/-- Dynamically typed Python values occurring in transcripts (commitments, responses,
precommitments): `None`, integers/`Bn`, points, `str`, `bytes`, lists, tuples and dictionaries with
string keys. -/
inductive Val (E : Type) where
  | none
  | int (n : Int)
  | pt (p : Pt E)
  | str (s : String)
  | bytes (b : List UInt8)
  | list (l : List (Val E))
  | tuple (l : List (Val E))
  | dict (l : List (String × Val E))

namespace Val
variable {E : Type} [DecidableEq E]

mutual
/-- Structural equality of Python values (`==`); lists and tuples are never equal. -/
def beq : Val E → Val E → Bool
  | .none, .none => true
  | .int a, .int b => a == b
  | .pt a, .pt b => a == b
  | .str a, .str b => a == b
  | .bytes a, .bytes b => a == b
  | .list a, .list b => beqL a b
  | .tuple a, .tuple b => beqL a b
  | .dict a, .dict b => beqD a b
  | _, _ => false
/-- Elementwise equality of lists. -/
def beqL : List (Val E) → List (Val E) → Bool
  | [], [] => true
  | a :: as, b :: bs => beq a b && beqL as bs
  | _, _ => false
/-- Entrywise equality of dictionaries.  Simplification: insertion order is significant. -/
def beqD : List (String × Val E) → List (String × Val E) → Bool
  | [], [] => true
  | (k, a) :: as, (k', b) :: bs => k == k' && beq a b && beqD as bs
  | _, _ => false
end

mutual
theorem eq_of_beq : ∀ (a b : Val E), beq a b = true → a = b
  | .none, b => by cases b <;> simp [beq]
  | .int _, b => by cases b <;> simp [beq]
  | .pt _, b => by cases b <;> simp [beq]
  | .str _, b => by cases b <;> simp [beq]
  | .bytes _, b => by cases b <;> simp [beq]
  | .list l, b => by
      cases b <;> simp [beq]
      exact eq_of_beqL _ _
  | .tuple l, b => by
      cases b <;> simp [beq]
      exact eq_of_beqL _ _
  | .dict l, b => by
      cases b <;> simp [beq]
      exact eq_of_beqD _ _
theorem eq_of_beqL : ∀ (a b : List (Val E)), beqL a b = true → a = b
  | [], b => by cases b <;> simp [beqL]
  | a :: as, [] => by simp [beqL]
  | a :: as, b :: bs => by
      simp only [beqL, Bool.and_eq_true]
      intro ⟨h1, h2⟩
      rw [eq_of_beq a b h1, eq_of_beqL as bs h2]
theorem eq_of_beqD : ∀ (a b : List (String × Val E)), beqD a b = true → a = b
  | [], b => by cases b <;> simp [beqD]
  | (k, a) :: as, [] => by simp [beqD]
  | (k, a) :: as, (k', b) :: bs => by
      simp only [beqD, Bool.and_eq_true]
      intro ⟨⟨h0, h1⟩, h2⟩
      rw [eq_of_beq a b h1, eq_of_beqD as bs h2, LawfulBEq.eq_of_beq h0]
end

mutual
theorem beq_refl : ∀ (a : Val E), beq a a = true
  | .none => by simp [beq]
  | .int _ => by simp [beq]
  | .pt _ => by simp [beq]
  | .str _ => by simp [beq]
  | .bytes _ => by simp [beq]
  | .list l => by simp only [beq]; exact beqL_refl l
  | .tuple l => by simp only [beq]; exact beqL_refl l
  | .dict l => by simp only [beq]; exact beqD_refl l
theorem beqL_refl : ∀ (a : List (Val E)), beqL a a = true
  | [] => by simp [beqL]
  | a :: as => by simp [beqL, beq_refl a, beqL_refl as]
theorem beqD_refl : ∀ (a : List (String × Val E)), beqD a a = true
  | [] => by simp [beqD]
  | (k, a) :: as => by simp [beqD, beq_refl a, beqD_refl as]
end

instance : DecidableEq (Val E) := fun a b =>
  if h : beq a b = true then .isTrue (eq_of_beq a b h)
  else .isFalse (fun e => h (e ▸ beq_refl a))

end Val

section
variable {E : Type}

/-- Use of a value where an integer is needed (`w * g`, `Bn(elem)`); anything else is a
`TypeError`. -/
def Val.asInt : Val E → Except Err Int
  | .int n => .ok n
  | _ => .error .typeError

/-- Use of a value where a point is needed. -/
def Val.asPt : Val E → Except Err (Pt E)
  | .pt p => .ok p
  | _ => .error .attributeError

/-- `v[i]` for a non-negative literal/loop index `i`. -/
def Val.index : Val E → Nat → Except Err (Val E)
  | .list l, i => match l[i]? with | some v => .ok v | Option.none => .error .indexError
  | .tuple l, i => match l[i]? with | some v => .ok v | Option.none => .error .indexError
  | .bytes b, i => match b[i]? with | some v => .ok (.int v.toNat) | Option.none => .error .indexError
  | .dict _, _ => .error .keyError
  | _, _ => .error .typeError

/-- `v[key]` for a string key. -/
def Val.lookup : Val E → String → Except Err (Val E)
  | .dict l, k => match l.lookup k with | some v => .ok v | Option.none => .error .keyError
  | _, _ => .error .typeError

/-- Iterating over a value (`for x in v`). -/
def Val.elems : Val E → Except Err (List (Val E))
  | .list l => .ok l
  | .tuple l => .ok l
  | .bytes b => .ok (b.map (fun x => .int x.toNat))
  | .dict l => .ok (l.map (fun e => .str e.1))
  | _ => .error .typeError

/-- Python truthiness, used by `any(precommitment)` (`zksk/composition.py:601`). -/
def Val.truthy : Val E → Bool
  | .none => false
  | .int n => n != 0
  | .pt _ => true
  | .str s => s != ""
  | .bytes b => !b.isEmpty
  | .list l => !l.isEmpty
  | .tuple l => !l.isEmpty
  | .dict l => !l.isEmpty

/-- `x is None`. -/
def Val.isNone : Val E → Bool
  | .none => true
  | _ => false
end

/-! ### Secrets, the heap of secret values, dictionaries keyed by secrets -/

/-- A `Secret` object (`zksk/expr.py:95-145`) is identified by its address. -/
abbrev Sec := Nat

/-- Attributes of the `Secret` objects: the (immutable) name and the mutable value. -/
structure Store where
  name : Sec → String
  value : Sec → Option Int

/-- What `Secret.__hash__`/`__eq__` look at (`zksk/expr.py:141-145`): two secrets are the same
dictionary key iff the names and the *current* values are equal.  (Python also tries object identity
first, which implies the same key.)  Simplification: `hash` is taken to be injective on names. -/
def Store.key (σ : Store) (s : Sec) : String × Option Int := (σ.name s, σ.value s)

/-- `secret.value = v`. -/
def Store.setValue (σ : Store) (s : Sec) (v : Int) : Store :=
  { σ with value := fun s' => if s' = s then some v else σ.value s' }

/-- A Python dictionary with `Secret` keys, in insertion order. -/
abbrev Dict (α : Type) := List (Sec × α)

namespace Dict
variable {α : Type}

/-- `d.get(s)`; `none` is "not in". -/
def get? (σ : Store) (d : Dict α) (s : Sec) : Option α :=
  match d with
  | [] => none
  | (k, v) :: d => if σ.key k = σ.key s then some v else get? σ d s

/-- `d[s]`. -/
def get (σ : Store) (d : Dict α) (s : Sec) : Except Err α :=
  match get? σ d s with
  | some v => .ok v
  | none => .error .keyError

/-- `s in d`. -/
def has (σ : Store) (d : Dict α) (s : Sec) : Bool := (get? σ d s).isSome

/-- `d[s] = v`: an existing key object is kept, its value replaced. -/
def set (σ : Store) (d : Dict α) (s : Sec) (v : α) : Dict α :=
  match d with
  | [] => [(s, v)]
  | (k, w) :: d => if σ.key k = σ.key s then (k, v) :: d else (k, w) :: set σ d s v

/-- `d.update(e)`. -/
def update (σ : Store) (d e : Dict α) : Dict α :=
  e.foldl (fun d kv => set σ d kv.1 kv.2) d

end Dict

/-- `update_secret_values` (`zksk/expr.py:177-193`). -/
def updateSecretValues (σ : Store) (d : Dict Int) : Store :=
  d.foldl (fun σ kv => σ.setValue kv.1 kv.2) σ

/-! ### Randomness -/

/-- The state of a run: the secret heap and the stream of random numbers still to be drawn.  Every
theorem quantifies over all streams, i.e. over all outcomes of all random draws. -/
structure World where
  store : Store
  rng : Nat → Nat

/-- Computations that may draw randomness, mutate secrets and raise. -/
abbrev PM := StateT World (Except Err)

/-- `Bn(m).random()`: uniform in `[0, m)`; fails for `m = 0`. -/
def draw (m : Nat) : PM Int := fun w =>
  if m = 0 then .error .foreign
  else .ok (((w.rng 0 % m : Nat) : Int), { w with rng := fun i => w.rng (i + 1) })

/-- Lift a pure computation that may raise. -/
def liftE {α : Type} (x : Except Err α) : PM α := fun w =>
  match x with
  | .ok a => .ok (a, w)
  | .error e => .error e

/-- Read the secret heap. -/
def getStore : PM Store := fun w => .ok (w.store, w)

/-- Write the secret heap. -/
def setStore (σ : Store) : PM Unit := fun w => .ok ((), { w with store := σ })

/-- Raise. -/
def raise {α : Type} (e : Err) : PM α := fun _ => .error e

/-- `CHALLENGE_LENGTH` (`zksk/consts.py`). -/
def challengeLength : Nat := 128

/-- `get_random_num(bits)` (`zksk/utils/groups.py:77-86`). -/
def getRandomNum (bits : Nat) : PM Int := draw (2 ^ bits)

end Zksk
