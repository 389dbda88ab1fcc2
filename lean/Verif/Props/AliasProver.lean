import Verif.Lemmas.AliasProver
import Verif.Props.Alias

namespace Zksk.Props

open Zksk Spec Alias

variable {E : Type} [AddCommGroup E] [DecidableEq E]

/-- **C95** When every leaf of a composition is a different object, proving the composition of objects
is proving the statement it looks like: the same proofs, errors and draws, and afterwards the objects
look like the statement that is left. -/
theorem C95_prove_partial (env : Env E) (t : Tree Nat) (hn : (objects t).Nodup) (h : Objs E) (d : Dict Int)
    (message : String) :
    (do let (nizk, h') ← Alias.prove env t h d message; pure (nizk, resolve h' t)) =
      Zksk.prove (LeafProver E) env (resolve h t) d message :=
  Tracks.eq (y := Alias.prove env t h d message) (f := fun y : NIZK E × Objs E => (y.1, resolve y.2 t))
    ((prove_tracks env t hn h d message).mono fun _ _ k => k.1)

/-- **C95** The same for the messages of a conversation in which the verifier sends the challenge `c`. -/
theorem C95_converse_partial (env : Env E) (t : Tree Nat) (hn : (objects t).Nodup) (h : Objs E) (d : Dict Int)
    (c : Int) :
    (do let (v, hash, com, r, h') ← Alias.converse env t h d c; pure (v, hash, com, r, resolve h' t)) =
      (do
        match ← PTree.getProver (resolve h t) d with
        | (none, _) => raise .attributeError
        | (some (p : StmtProver E), _) => do
          let (v, p1) ← PTree.precommit p
          let ((hash, com), p2) ← PTree.commit env p1
          let r ← PTree.computeResponse p2 c
          pure (v, hash, com, r, PTree.stmtOf p2)) :=
  Tracks.eq (y := Alias.converse env t h d c)
    (f := fun y : Val E × List UInt8 × Val E × Val E × Objs E => (y.1, y.2.1, y.2.2.1, y.2.2.2.1, resolve y.2.2.2.2 t))
    ((converse_tracks env t hn h d c).mono fun _ _ k => k.1)

/-- **C95** The same for `simulate()`. -/
theorem C95_simulate_partial (env : Env E) (t : Tree Nat) (hn : (objects t).Nodup) (h : Objs E) (c : Option Int) :
    (do let (tr, hash, t', h') ← Alias.simulateTop env h t c; pure (tr, hash, resolve h' t')) =
      Zksk.simulateTop env (resolve h t) c :=
  Tracks.eq (y := Alias.simulateTop env h t c)
    (f := fun y : Sim E × List UInt8 × Tree Nat × Objs E => (y.1, y.2.1, resolve y.2.2.2 y.2.2.1))
    ((simulate_tracks env t hn h c).mono fun _ _ k => k.1)

/-- **C95** These calls store nothing in objects that are not in the composition. -/
theorem C95_others_untouched (env : Env E) (t : Tree Nat) (hn : (objects t).Nodup) (h : Objs E) (d : Dict Int)
    (message : String) (w w' : World) (nizk : NIZK E) (h' : Objs E)
    (hp : Alias.prove env t h d message w = .ok ((nizk, h'), w')) (o : Nat) (ho : o ∉ objects t) : h' o = h o := by
  rcases prove_tracks env t hn h d message w with ⟨e, h1, _⟩ | ⟨a, b, w1, h1, _, _, h4⟩
  · rw [hp] at h1; cases h1
  · rw [hp] at h1; cases h1
    exact h4 o ho

/-- **C95** Every expression in which each composition is used where it is made, and leaf objects any
number of times (`(p & q) | (p & r)`, `p | p`), builds a statement that is proved like the one with
separate leaves, and the proof is verified alike. -/
theorem C95_expression (env : Env E) (objs : Nat → Leaf E) (b : Build) (n : Nat) (h : Objs E)
    (hh : Hold h (b.make objs n).1) (d : Dict Int) (message : String) :
    (do let (nizk, _) ← Alias.prove env (identities (b.make objs n).1) h d message; pure nizk) =
      (do let (nizk, _) ← Zksk.prove (LeafProver E) env (separate (b.make objs n).1) d message; pure nizk) ∧
    ∀ (σ : Store) (nizk : NIZK E) (m : String),
      Alias.verify env σ (b.make objs n).1 nizk m = Zksk.verify env σ (separate (b.make objs n).1) nizk m := by
  refine ⟨?_, fun σ nizk m => C89_expression env σ objs b n nizk m⟩
  rw [← resolve_identities hh, ← C95_prove_partial env _ (make_nodup objs b n)]
  simp only [bind_assoc, pure_bind]

/-- There are such objects for every expression. -/
theorem C95_expression_meets (objs : Nat → Leaf E) (b : Build) (n : Nat) : ∃ h, Hold h (b.make objs n).1 :=
  make_hold objs b n

/-- The leaf objects of the example: 0 is a `DLNotEqual` statement, 1 a representation. -/
def exSharedObjs (bind : Bool) : Objs (ZMod 7) := fun o =>
  if o = 0 then .ext ⟨(exNe bind).spec, false, .none, none, none⟩ else .dlrep exAlso

/-- `c | c` with `c = And(s, d)`: both clauses have the same two objects. -/
def exSharedTwice : Tree Nat := .or false [.and false [.leaf 0, .leaf 1], .and false [.leaf 0, .leaf 1]]

/-- `Or(And(s, d), And(s, d))`: the clauses have objects of their own. -/
def exOwn : Tree Nat := .or false [.and false [.leaf 0, .leaf 1], .and false [.leaf 2, .leaf 3]]

/-- Objects for `exOwn`. -/
def exOwnObjs (bind : Bool) : Objs (ZMod 7) := fun o =>
  if o = 0 ∨ o = 2 then .ext ⟨(exNe bind).spec, false, .none, none, none⟩ else .dlrep exAlso

mutual
/-- The numbers in a message. -/
def exEncode : Val (ZMod 7) → List UInt8
  | .pt p => [UInt8.ofNat p.val.val]
  | .list vs => exEncodeL vs
  | .tuple vs => exEncodeL vs
  | _ => []
/-- The numbers in a list of messages. -/
def exEncodeL : List (Val (ZMod 7)) → List UInt8
  | [] => []
  | v :: vs => exEncode v ++ exEncodeL vs
end

mutual
/-- The numbers in an identifier. -/
def exIdBytes : PId (ZMod 7) → List UInt8
  | .dlrep _ _ lhs => [UInt8.ofNat lhs.val.val]
  | .comp _ subs => exIdBytesL subs
  | .ext _ v inner => exEncode v ++ exIdBytes inner
/-- The numbers in a list of identifiers. -/
def exIdBytesL : List (PId (ZMod 7)) → List UInt8
  | [] => []
  | v :: vs => exIdBytes v ++ exIdBytesL vs
end

/-- A hash function that depends on everything. -/
def exHash : Env (ZMod 7) where
  sha b := b
  toInt b := (b.foldl (fun a x => (7 * a + x.toNat) % 101) 1 : Nat)
  idBytes := exIdBytes
  encode := exEncode
  utf8 _ := [1]

/-- Prove and let the verifier, who has the same objects, verify. -/
def exVerdict (h : Objs (ZMod 7)) (t : Tree Nat) (rng : Nat → Nat) : Option (Except Err Bool) :=
  match Alias.prove exHash t h [(2, 2)] "m" ⟨exNeStore, rng⟩ with
  | .error _ => none
  | .ok ((nizk, _), w) => some (Alias.verify exHash w.store (place h t) nizk "m")

/-- **C95** fails when a composition with an extended part is used twice: two compositions that look the
same, of separate objects and of shared ones.  The proof of the first is accepted, the proof of the second
is rejected: either it does not have the hash of the statement (the first clause was proved) or the
challenge is not that of the commitments (the second clause). -/
theorem C95_violated : resolve (exOwnObjs true) exOwn = resolve (exSharedObjs true) exSharedTwice ∧ (objects exOwn).Nodup ∧
    exVerdict (exOwnObjs true) exOwn (fun i => 103 * i + 1) = some (.ok true) ∧
    exVerdict (exOwnObjs true) exOwn (fun i => 103 * i + 4) = some (.ok true) ∧
    exVerdict (exSharedObjs true) exSharedTwice (fun i => 103 * i + 1) = some (.ok false) ∧
    exVerdict (exSharedObjs true) exSharedTwice (fun i => 103 * i + 4) = some (.error .statementMismatch) := by
  refine ⟨rfl, by decide, by decide +kernel, by decide +kernel, by decide +kernel, by decide +kernel⟩

/-- The same without the binding of the secrets. -/
example : exVerdict (exOwnObjs false) exOwn (fun i => 103 * i + 1) = some (.ok true) ∧
    exVerdict (exOwnObjs false) exOwn (fun i => 103 * i + 4) = some (.ok true) ∧
    exVerdict (exSharedObjs false) exSharedTwice (fun i => 103 * i + 1) = some (.ok false) ∧
    exVerdict (exSharedObjs false) exSharedTwice (fun i => 103 * i + 4) = some (.error .statementMismatch) := by
  decide +kernel

end Zksk.Props
