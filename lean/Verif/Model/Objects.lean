import Verif.Model.Interactive

/-!
# Statement objects that share parts

In the other files statements are values.  Here they are objects, as in Python: `And` and `Or` make
shallow copies of their arguments (`zksk/composition.py:417,723`), so that composed statements may have
the same list `subproofs` (and the statements in it) in common, and copies of a `DLRep` the same
dictionary `secret_values`.  Only compositions of representations are modelled in this way.

Objects, dictionaries and lists are numbered by their position in the heap; nothing is ever removed.
Recursion over the graph of objects, which has no cycles, is bounded by the number of objects.
-/

namespace Zksk

variable {E : Type} [AddCommGroup E] [DecidableEq E]

/-- Attributes of a statement object: `DLRep` (`zksk/primitives/dlrep.py:84-106`; `values` is the number of
the dictionary `secret_values`), `AndProofStmt`, `OrProofStmt` (`zksk/composition.py:410-417,709-723`;
`subproofs` is the number of the list). -/
inductive Obj (E : Type) where
  | rep (lhs : Pt E) (bases : List (Pt E)) (secretVars : List Sec) (values : Nat) (simulated : Bool)
  | all (subproofs : Nat) (simulated : Bool)
  | any (subproofs : Nat) (simulated : Bool)

/-- The heap of statement objects, dictionaries of values, and lists of statements. -/
structure Objects (E : Type) where
  objs : List (Obj E)
  dicts : List (Dict Int)
  lists : List (List Nat)

/-- Prover objects: `DLRepProver` (`zksk/base.py:94-110`, `zksk/primitives/dlrep.py:202-248`) refers to the
statement and to *its* dictionary (`dlrep.py:123,139`); `AndProver`, `OrProver` refer to the statement
(`zksk/composition.py:560-586,839-845`). -/
inductive HProver (E : Type) where
  | rep (stmt values : Nat) (ks : Option (List Int))
  | all (stmt : Nat) (subs : List (HProver E))
  | any (stmt idx : Nat) (sub : HProver E) (sims : List (Sim E))

namespace Obj

/-- The attribute `_simulated` (`zksk/composition.py:276-283`). -/
def simulated : Obj E → Bool
  | .rep _ _ _ _ b => b
  | .all _ b => b
  | .any _ b => b

/-- `set_simulated(value)` (`zksk/composition.py:285-292`). -/
def setSimulated (v : Bool) : Obj E → Obj E
  | .rep a b c d _ => .rep a b c d v
  | .all l _ => .all l v
  | .any l _ => .any l v

end Obj

namespace Objects

/-- What the object `r` looks like at the moment, as a value. -/
def read (h : Objects E) : Nat → Nat → Option (Core E)
  | 0, _ => none
  | n + 1, r =>
    match h.objs[r]? with
    | none => none
    | some (.rep lhs bases vars v b) => (h.dicts[v]?).map fun vals => .leaf ⟨lhs, bases, vars, vals, b⟩
    | some (.all l b) =>
      (h.lists[l]?).bind fun rs => (PTree.allSome (rs.map (h.read n))).map (.and b)
    | some (.any l b) =>
      (h.lists[l]?).bind fun rs => (PTree.allSome (rs.map (h.read n))).map (.or b)

/-- `read` with the bound for recursion. -/
def tree (h : Objects E) (r : Nat) : Option (Core E) := h.read h.objs.length r

/-! ### Construction -/

/-- `DLRep(lhs, expr, simulated)` (`zksk/primitives/dlrep.py:84-106`). -/
def newRep (σ : Store) (h : Objects E) (lhs : Pt E) (secrets : List Sec) (bases : List (Pt E)) (simulated : Bool) :
    Except Err (Nat × Objects E) := do
  let s ← mkDLRep σ lhs secrets bases simulated
  .ok (h.objs.length, ⟨h.objs ++ [.rep s.lhs s.bases s.secretVars h.dicts.length s.simulated],
    h.dicts ++ [s.secretValues], h.lists⟩)

/-- `[copy.copy(p) for p in list(subproofs)]`: new objects with the same attributes. -/
def copies (h : Objects E) : List Nat → Except Err (List (Obj E))
  | [] => .ok []
  | r :: rs =>
    match h.objs[r]? with
    | none => .error .attributeError
    | some o => do
      let os ← copies h rs
      .ok (o :: os)

/-- The constructors of composed statements (`zksk/composition.py:410-417,709-723`). -/
def compose (mk : Nat → Bool → Obj E) (h : Objects E) (rs : List Nat) : Except Err (Nat × Objects E) :=
  if rs.length < 2 then .error .valueError else do
    let os ← copies h rs
    .ok (h.objs.length + os.length, ⟨h.objs ++ os ++ [mk h.lists.length false], h.dicts,
      h.lists ++ [List.range' h.objs.length os.length]⟩)

/-- `AndProofStmt(*subproofs)`. -/
def newAll (h : Objects E) (rs : List Nat) : Except Err (Nat × Objects E) := compose .all h rs

/-- `OrProofStmt(*subproofs)`. -/
def newAny (h : Objects E) (rs : List Nat) : Except Err (Nat × Objects E) := compose .any h rs

/-- `self.subproofs` of an `AndProofStmt`, else the statement itself (`zksk/composition.py:122-131`). -/
def andParts (h : Objects E) (r : Nat) : List Nat :=
  match h.objs[r]? with
  | some (.all l _) => (h.lists[l]?).getD [r]
  | _ => [r]

/-- `self.subproofs` of an `OrProofStmt`, else the statement itself (`zksk/composition.py:140-149`). -/
def orParts (h : Objects E) (r : Nat) : List Nat :=
  match h.objs[r]? with
  | some (.any l _) => (h.lists[l]?).getD [r]
  | _ => [r]

/-- `a & b` (`zksk/composition.py:115-131`). -/
def opAnd (h : Objects E) (a b : Nat) : Except Err (Nat × Objects E) := newAll h (andParts h a ++ andParts h b)

/-- `a | b` (`zksk/composition.py:133-149`). -/
def opOr (h : Objects E) (a b : Nat) : Except Err (Nat × Objects E) := newAny h (orParts h a ++ orParts h b)

/-- `stmt.set_simulated(value)` (`zksk/composition.py:285-292`). -/
def setSimulated (h : Objects E) (r : Nat) (v : Bool) : Objects E :=
  { h with objs := h.objs.modify r (Obj.setSimulated v) }

/-! ### Provers -/

/-- Loop of `AndProofStmt.get_prover` (`zksk/composition.py:748`); `get` is `get_prover` of the parts. -/
def getAll (get : Objects E → Nat → PM (Option (HProver E) × Objects E)) :
    List Nat → Objects E → PM (List (Option (HProver E)) × Objects E)
  | [], h => pure ([], h)
  | r :: rs, h => do
    let (p?, h1) ← get h r
    let (ps, h2) ← getAll get rs h1
    pure (p? :: ps, h2)

/-- Positions of the clauses that are not marked (`zksk/composition.py:456-460`). -/
def candidates (h : Objects E) : List Nat → Nat → List Nat
  | [], _ => []
  | r :: rs, i =>
    if (h.objs[r]?.map Obj.simulated).getD true then candidates h rs (i + 1) else i :: candidates h rs (i + 1)

/-- Loop of `OrProofStmt.get_prover` (`zksk/composition.py:471-482`). -/
def getAny (get : Objects E → Nat → PM (Option (HProver E) × Objects E)) (rs : List Nat) :
    Nat → List Nat → Objects E → PM (Option (Nat × HProver E) × Objects E)
  | 0, _, h => pure (none, h)
  | fuel + 1, possible, h =>
    if possible.isEmpty then pure (none, h) else do
      let i ← PTree.choice possible
      match rs[i]? with
      | none => raise .indexError
      | some r => do
        let (p?, h1) ← get h r
        match p? with
        | some p => pure (some (i, p), h1)
        | none => getAny get rs fuel (possible.erase i) h1

/-- `get_prover(secrets_dict)` of `DLRep` (`zksk/primitives/dlrep.py:108-139`), `AndProofStmt`
(`zksk/composition.py:738-754`), `OrProofStmt` (`:441-483`).  `DLRep.get_prover` writes the values into the
dictionary of the statement, marks the statement (line 126), and the prover gets this dictionary. -/
def getProver (d : Dict Int) : Nat → Objects E → Nat → PM (Option (HProver E) × Objects E)
  | 0, _, _ => raise .attributeError
  | n + 1, h, r =>
    match h.objs[r]? with
    | none => raise .attributeError
    | some (.rep lhs bases vars v _) =>
      match h.dicts[v]? with
      | none => raise .attributeError
      | some vals0 => do
        let σ ← getStore
        let vals := Dict.update σ vals0 d
        let h1 : Objects E := ⟨h.objs.set r (.rep lhs bases vars v true), h.dicts.set v vals, h.lists⟩
        if vals.isEmpty || vars.any (fun x => !(Dict.has σ vals x)) then pure (none, h1)
        else pure (some (.rep r v none), h1)
    | some (.all l b) =>
      match h.lists[l]? with
      | none => raise .attributeError
      | some rs => do
        let σ ← getStore
        setStore (updateSecretValues σ d)
        if b then pure (none, h) else do
          let (ps, h1) ← getAll (getProver d n) rs h
          match PTree.allSome ps with
          | none => raise .valueError
          | some ps' => pure (some (.all r ps'), h1)
    | some (.any l b) =>
      match h.lists[l]? with
      | none => raise .attributeError
      | some rs => do
        let σ ← getStore
        setStore (updateSecretValues σ d)
        if b then pure (none, h) else do
          let cands := candidates h rs 0
          let (x, h1) ← getAny (getProver d n) rs cands.length cands h
          match x with
          | none => pure (none, h1)
          | some (i, p) =>
            match PTree.allSome (rs.map (h1.read n)) with
            | none => raise .attributeError
            | some ts => do
              let (_, sims) ← PTree.setupSimulations i ts 0
              pure (some (.any r i p sims), h1)

end Objects

namespace HProver

mutual
/-- What the prover looks like at the moment, as a value. -/
def see (h : Objects E) : HProver E → Option (CoreProver E)
  | .rep r v ks =>
    match h.read 1 r, h.dicts[v]? with
    | some (.leaf s), some vals => some (.leaf ⟨s, vals, ks⟩)
    | _, _ => none
  | .all r subs =>
    match h.objs[r]? with
    | some (.all _ b) => (seeL h subs).map (.and b)
    | _ => none
  | .any r i sub sims =>
    match h.objs[r]? with
    | some (.any l b) =>
      (h.lists[l]?).bind fun rs => (PTree.allSome (rs.map h.tree)).bind fun ts =>
        (see h sub).map fun p => .or b i ts p sims
    | _ => none
/-- `see` for lists. -/
def seeL (h : Objects E) : List (HProver E) → Option (List (CoreProver E))
  | [] => some []
  | p :: ps => (see h p).bind fun q => (seeL h ps).map (q :: ·)
end

mutual
/-- The prover object after a method stored new randomizers, which are in `q`. -/
def keep : HProver E → CoreProver E → HProver E
  | .rep r v _, .leaf q => .rep r v q.ks
  | .all r ps, .and _ qs => .all r (keepL ps qs)
  | .any r i p sims, .or _ _ _ q _ => .any r i (keep p q) sims
  | p, _ => p
/-- `keep` for lists. -/
def keepL : List (HProver E) → List (CoreProver E) → List (HProver E)
  | p :: ps, q :: qs => keep p q :: keepL ps qs
  | ps, _ => ps
end

/-- `prover.commit()` (`zksk/base.py:122-133`), on the statement as it is at the moment. -/
def commit (env : Env E) (h : Objects E) (p : HProver E) : PM ((List UInt8 × Val E) × HProver E) :=
  match p.see h with
  | none => raise .attributeError
  | some q => do
    let (c, q') ← PTree.commit env q
    pure (c, p.keep q')

/-- `prover.compute_response(challenge)`, with the values that are in the dictionary at the moment. -/
def respond (h : Objects E) (p : HProver E) (c : Int) : PM (Val E) :=
  match p.see h with
  | none => raise .attributeError
  | some q => PTree.computeResponse q c

end HProver

namespace Objects

/-- `stmt.get_prover(secret_dict)`. -/
def proverOf (h : Objects E) (r : Nat) (d : Dict Int) : PM (Option (HProver E) × Objects E) :=
  getProver d h.objs.length h r

/-- `stmt.prove(secret_dict, message)` (`zksk/composition.py:191-198`). After `get_prover` the statement
objects are only read. -/
def prove (env : Env E) (h : Objects E) (r : Nat) (d : Dict Int) (message : String) : PM (NIZK E × Objects E) := do
  let (p?, h1) ← proverOf h r d
  match p? with
  | none => raise .attributeError
  | some p =>
    match p.see h1 with
    | none => raise .attributeError
    | some q => do
      let (π, _) ← PTree.getNizkProof env q message
      pure (π, h1)

/-- `stmt.verify(nizk, message)` (`zksk/composition.py:200-205`). (`recompute_commitment` of disjunctions stores the
sub-challenges as an attribute, which nobody else reads.) -/
def verify (env : Env E) (σ : Store) (h : Objects E) (r : Nat) (π : NIZK E) (message : String) : Except Err Bool :=
  match h.tree r with
  | none => .error .attributeError
  | some t => Zksk.verify env σ t π message

/-- `stmt.simulate(challenge)` (`zksk/composition.py:300-308`). -/
def simulate (env : Env E) (h : Objects E) (r : Nat) (c : Option Int) : PM ((Sim E × List UInt8) × Objects E) :=
  match (h.setSimulated r true).tree r with
  | none => raise .attributeError
  | some t => do
    let (tr, id, _) ← simulateTop env t c
    pure ((tr, id), h.setSimulated r true)

end Objects

end Zksk
