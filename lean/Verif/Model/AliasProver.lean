import Verif.Model.Alias

/-! # Proving compositions that contain one statement object at several places

The prover side of `Verif.Model.Alias`: a composition is a tree whose leaves are the identities of
statement objects, and what the objects hold is a separate state.  Whatever a call stores in an object
(`_precommitment` and `_constructed_stmt` of an extended statement, `zksk/extended.py:137-140`; the
mark and the values of a `DLRep`, `zksk/primitives/dlrep.py:121-126`) is seen at every place of the
object. -/

namespace Zksk

variable {E : Type} [AddCommGroup E] [DecidableEq E]

namespace Alias

/-- What the leaf statement objects hold. -/
abbrev Objs (E : Type) := Nat → Leaf E

/-- The attributes of object `o` are replaced. -/
def write (h : Objs E) (o : Nat) (l : Leaf E) : Objs E := fun i => if i = o then l else h i

mutual
/-- The composition as it looks at the moment. -/
def resolve (h : Objs E) : Tree Nat → Stmt E
  | .leaf o => .leaf (h o)
  | .and s subs => .and s (resolveL h subs)
  | .or s subs => .or s (resolveL h subs)
/-- A list of compositions as they look at the moment. -/
def resolveL (h : Objs E) : List (Tree Nat) → List (Stmt E)
  | [] => []
  | t :: ts => resolve h t :: resolveL h ts
end

mutual
/-- The composition with what its objects hold at the moment written at every place. -/
def place (h : Objs E) : Tree Nat → Tree (Placed E)
  | .leaf o => .leaf ⟨o, h o⟩
  | .and s subs => .and s (placeL h subs)
  | .or s subs => .or s (placeL h subs)
/-- The same for a list of compositions. -/
def placeL (h : Objs E) : List (Tree Nat) → List (Tree (Placed E))
  | [] => []
  | t :: ts => place h t :: placeL h ts
end

/-- Prover objects.  The prover of a leaf refers to the statement object (`zksk/base.py:107-110`), the
`stmt` inside the `LeafProver` is out of date and never used.  Simplification: `DLRepProver` refers to
the dictionary of its statement (`zksk/primitives/dlrep.py:123,139`), here it has its content; within one
call of `prove` all updates of such a dictionary write the same values (`Verif.Model.Objects` has the
dictionaries). -/
abbrev PlaceProver (E : Type) := PTree E Nat (Nat × LeafProver E)

/-- A prover together with what its statement holds at the moment. -/
def load : Leaf E → LeafProver E → LeafProver E
  | .dlrep s, .dlrep p => .dlrep { p with stmt := s }
  | .ext s, .ext p => .ext { p with stmt := s }
  | _, p => p

mutual
/-- The prover as it looks at the moment. -/
def resolveP (h : Objs E) : PlaceProver E → StmtProver E
  | .leaf (o, p) => .leaf (load (h o) p)
  | .and s subs => .and s (resolvePL h subs)
  | .or s idx stmts sub sims => .or s idx (resolveL h stmts) (resolveP h sub) sims
/-- A list of provers as they look at the moment. -/
def resolvePL (h : Objs E) : List (PlaceProver E) → List (StmtProver E)
  | [] => []
  | p :: ps => resolveP h p :: resolvePL h ps
end

mutual
/-- `prepare_simulate_proof` (`zksk/composition.py:519-521,778-780`, `zksk/extended.py:142-144`). -/
def prepareSim (h : Objs E) : Tree Nat → PM (Objs E)
  | .leaf o => do
    let l ← StmtOps.prepareSim (h o)
    pure (write h o l)
  | .and _ subs => prepareSimL h subs
  | .or _ subs => prepareSimL h subs
/-- Loop of `prepare_simulate_proof`. -/
def prepareSimL (h : Objs E) : List (Tree Nat) → PM (Objs E)
  | [] => pure h
  | t :: ts => do
    let h1 ← prepareSim h t
    prepareSimL h1 ts
end

/-- `set_simulated(value)` (`zksk/composition.py:285-292`). -/
def setSimulated (v : Bool) (h : Objs E) : Tree Nat → Tree Nat × Objs E
  | .leaf o => (.leaf o, write h o (StmtOps.setSimulated v (h o)))
  | .and _ subs => (.and v subs, h)
  | .or _ subs => (.or v subs, h)

/-- `stmt.simulate(challenge)` (`zksk/composition.py:207-228`): `simulate_proof` (`:523-557,782-817`) writes
nothing into statements. -/
def simulateTop (env : Env E) (h : Objs E) (t : Tree Nat) (c : Option Int) :
    PM (Sim E × List UInt8 × Tree Nat × Objs E) := do
  let (t1, h1) := setSimulated true h t
  let h2 ← prepareSim h1 t1
  let tr ← Tree.simulate (resolve h2 t1) none c
  let σ ← getStore
  let id ← liftE (Tree.proofId σ (resolve h2 t1))
  pure (tr, env.digest id, t1, h2)

/-- `OrProver.setup_simulations` (`zksk/composition.py:577-586`). -/
def setupSimulations (idx : Nat) : Objs E → List (Tree Nat) → Nat → PM (List (Sim E) × Objs E)
  | h, [], _ => pure ([], h)
  | h, t :: ts, index =>
    if index = idx then setupSimulations idx h ts (index + 1)
    else do
      let h1 ← prepareSim h t
      let s ← Tree.simulate (resolve h1 t) none none
      let (sims, h2) ← setupSimulations idx h1 ts (index + 1)
      pure (s :: sims, h2)

/-- The selection loop of `OrProofStmt.get_prover` (`zksk/composition.py:471-482`). `acts[i]` runs
`self.subproofs[i].get_prover(secrets_dict)` on the objects as they are then. -/
def orLoop (acts : List (Objs E → PM (Option (PlaceProver E) × Objs E))) :
    Nat → List Nat → Objs E → PM (Option (Nat × PlaceProver E) × Objs E)
  | 0, _, h => pure (none, h)
  | fuel + 1, possible, h =>
    if possible.isEmpty then pure (none, h) else do
      let i ← PTree.choice possible
      match acts[i]? with
      | none => raise .indexError
      | some act => do
        let (p?, h1) ← act h
        match p? with
        | some p => pure (some (i, p), h1)
        | none => orLoop acts fuel (possible.erase i) h1

mutual
/-- `get_prover` of `OrProofStmt` (`zksk/composition.py:441-483`), `AndProofStmt` (`:738-754`) and of leaf
objects (`zksk/primitives/dlrep.py:108-139`, `zksk/extended.py:99-115`). -/
def getProver (d : Dict Int) : Tree Nat → Objs E → PM (Option (PlaceProver E) × Objs E)
  | .leaf o, h => do
    let (p?, l) ← (ProverOps.getProver (h o) d : PM (Option (LeafProver E) × Leaf E))
    pure (p?.map (fun p => .leaf (o, p)), write h o l)
  | .and s subs, h => do
    let σ ← getStore
    setStore (updateSecretValues σ d)
    if s then pure (none, h) else do
      let (ps, h1) ← getProverL d subs h
      match PTree.allSome ps with
      | none => raise .valueError
      | some ps' => pure (some (.and s ps'), h1)
  | .or s subs, h => do
    let σ ← getStore
    setStore (updateSecretValues σ d)
    if s then pure (none, h) else do
      let cands := PTree.candidates (resolveL h subs) 0
      let (r, h1) ← orLoop (getProverActs d subs) cands.length cands h
      match r with
      | none => pure (none, h1)
      | some (i, p) => do
        let (sims, h2) ← setupSimulations i h1 subs 0
        pure (some (.or s i subs p sims), h2)
/-- `[sub_proof.get_prover(secrets_dict) for sub_proof in self.subproofs]`. -/
def getProverL (d : Dict Int) : List (Tree Nat) → Objs E → PM (List (Option (PlaceProver E)) × Objs E)
  | [], h => pure ([], h)
  | t :: ts, h => do
    let (p?, h1) ← getProver d t h
    let (ps, h2) ← getProverL d ts h1
    pure (p? :: ps, h2)
/-- The calls `self.subproofs[i].get_prover(secrets_dict)`, not yet run. -/
def getProverActs (d : Dict Int) : List (Tree Nat) → List (Objs E → PM (Option (PlaceProver E) × Objs E))
  | [] => []
  | t :: ts => getProver d t :: getProverActs d ts
end

mutual
/-- `precommit` of `AndProver` (`zksk/composition.py:847-865`), `OrProver` (`:588-603`) and of the provers of
leaf objects (`zksk/extended.py:194-211`). -/
def precommit : PlaceProver E → Objs E → PM (Val E × PlaceProver E × Objs E)
  | .leaf (o, p), h => do
    let (v, p') ← (ProverOps.precommit (load (h o) p) : PM (Val E × LeafProver E))
    pure (v, .leaf (o, p'), write h o (ProverOps.stmtOf p'))
  | .and s subs, h => do
    let (vs, subs', h1) ← precommitL subs h
    pure (PTree.andPrecommitment vs, .and s subs', h1)
  | .or s idx stmts sub sims, h => do
    let (v, sub', h1) ← precommit sub h
    let vs ← liftE (PTree.orSlots stmts.length idx v (sims.map Sim.precommitment))
    pure (if vs.any Val.truthy then .list vs else .none, .or s idx stmts sub' sims, h1)
/-- Loop of `AndProver.precommit`. -/
def precommitL : List (PlaceProver E) → Objs E → PM (List (Val E) × List (PlaceProver E) × Objs E)
  | [], h => pure ([], [], h)
  | p :: ps, h => do
    let (v, p', h1) ← precommit p h
    let (vs, ps', h2) ← precommitL ps h1
    pure (v :: vs, p' :: ps', h2)
end

/-- `get_nizk_proof(message)` (`zksk/base.py:135-166`).  After `precommit` nothing is stored in a statement
object any more: `internal_commit` and `compute_response` (`zksk/composition.py:605-659,867-889`,
`zksk/primitives/dlrep.py:205-248`, `zksk/extended.py:172-192`) write into prover objects only, so they
run on the provers and statements as they look then. -/
def getNizkProof (env : Env E) (p : PlaceProver E) (h : Objs E) (message : String) : PM (NIZK E × Objs E) := do
  let (precom, p1, h1) ← precommit p h
  let (com, p2) ← PTree.internalCommit (resolveP h1 p1) none
  let σ ← getStore
  let id ← liftE (Tree.proofId σ (PTree.stmtOf p2))
  let c ← liftE (env.fiatShamir id precom com message)
  let r ← PTree.computeResponse p2 c
  pure ({ challenge := c, responses := r, precommitment := precom, stmtHash := env.digest id }, h1)

/-- `stmt.prove(secret_dict, message)` (`zksk/composition.py:191-198`).  Returns the proof and what the
objects hold afterwards. -/
def prove (env : Env E) (t : Tree Nat) (h : Objs E) (d : Dict Int) (message : String) : PM (NIZK E × Objs E) := do
  let (p?, h1) ← getProver d t h
  match p? with
  | none => raise .attributeError
  | some p => getNizkProof env p h1 message

/-- A conversation with an honest verifier who sends the challenge `c` (`zksk/utils/debug.py:19-39`):
precommitment, hash of the statement, commitment, responses. -/
def converse (env : Env E) (t : Tree Nat) (h : Objs E) (d : Dict Int) (c : Int) :
    PM (Val E × List UInt8 × Val E × Val E × Objs E) := do
  let (p?, h1) ← getProver d t h
  match p? with
  | none => raise .attributeError
  | some p => do
    let (v, p1, h2) ← precommit p h1
    let ((hash, com), p2) ← PTree.commit env (resolveP h2 p1)
    let r ← PTree.computeResponse p2 c
    pure (v, hash, com, r, h2)

end Alias
end Zksk
