import Verif.Model.Nizk

/-! # Provers (`zksk/base.py:94-166`, `zksk/composition.py`, `zksk/primitives/dlrep.py`,
`zksk/extended.py`) -/

namespace Zksk

variable {E : Type} [AddCommGroup E] [DecidableEq E]

/-- Interface of the prover objects `P` of leaves `L` (`zksk/base.py:94-133`). Methods that mutate the
prover (or the statement it refers to) return the new prover. -/
class ProverOps (E : outParam Type) (L : outParam Type) (P : Type) where
  /-- the statement `self.stmt` in its current state -/
  stmtOf : P → L
  /-- `stmt.get_prover(secrets_dict)`: the prover or `None`, and the mutated statement -/
  getProver : L → Dict Int → PM (Option P × L)
  /-- `precommit()` -/
  precommit : P → PM (Val E × P)
  /-- `internal_commit(randomizers_dict)` -/
  internalCommit : P → Option (Dict Int) → PM (Val E × P)
  /-- `compute_response(challenge)` -/
  computeResponse : P → Int → PM (Val E)

/-- Prover trees: `AndProver` (`zksk/composition.py:839-889`) and `OrProver` (`:560-659`). -/
inductive PTree (E L P : Type) where
  | leaf (p : P)
  | and (simulated : Bool) (subs : List (PTree E L P))
  | or (simulated : Bool) (idx : Nat) (stmts : List (Tree L)) (sub : PTree E L P)
      (sims : List (Sim E))

namespace PTree
variable {L P : Type} [StmtOps E L] [ProverOps E L P]

mutual
/-- `self.stmt`, in its current state. -/
def stmtOf : PTree E L P → Tree L
  | .leaf p => .leaf (ProverOps.stmtOf p)
  | .and s subs => .and s (stmtOfL subs)
  | .or s idx stmts sub _ => .or s (stmts.set idx (stmtOf sub))
/-- The statements of a list of provers. -/
def stmtOfL : List (PTree E L P) → List (Tree L)
  | [] => []
  | p :: ps => stmtOf p :: stmtOfL ps
end

/-- The slot computation shared by `OrProver.precommit`, `.internal_commit` and `.compute_response`
(`zksk/composition.py:592-600,617-625,646-657`): position `idx` is filled by the real prover, the
others by the stored simulations, whose list is one shorter. `k` positions remain, starting at
`index`. -/
def orSlotsGo {α : Type} (idx : Nat) (real : α) (sims : List α) : Nat → Nat → Except Err (List α)
  | 0, _ => .ok []
  | k + 1, index => do
    let x ← if index = idx then Except.ok real else
      let index1 := if index > idx then index - 1 else index
      match sims[index1]? with
      | some v => .ok v
      | none => .error .indexError
    let xs ← orSlotsGo idx real sims k (index + 1)
    .ok (x :: xs)

/-- All `n` slots. -/
def orSlots {α : Type} (n idx : Nat) (real : α) (sims : List α) : Except Err (List α) :=
  orSlotsGo idx real sims n 0

/-- `AndProver.precommit` on the collected sub-precommitments (`zksk/composition.py:855-865`):
`None` when all are `None`, else the list. -/
def andPrecommitment (vs : List (Val E)) : Val E :=
  if vs.all Val.isNone then .none else .list vs

mutual
/-- `precommit` of `AndProver` (`zksk/composition.py:847-865`) and `OrProver` (`:588-603`). -/
def precommit : PTree E L P → PM (Val E × PTree E L P)
  | .leaf p => do
    let (v, p') ← ProverOps.precommit p
    pure (v, .leaf p')
  | .and s subs => do
    let (vs, subs') ← precommitL subs
    pure (andPrecommitment vs, .and s subs')
  | .or s idx stmts sub sims => do
    let (v, sub') ← precommit sub
    let vs ← liftE (orSlots stmts.length idx v (sims.map Sim.precommitment))
    pure (if vs.any Val.truthy then .list vs else .none, .or s idx stmts sub' sims)
/-- Loop of `AndProver.precommit`. -/
def precommitL : List (PTree E L P) → PM (List (Val E) × List (PTree E L P))
  | [] => pure ([], [])
  | p :: ps => do
    let (v, p') ← precommit p
    let (vs, ps') ← precommitL ps
    pure (v :: vs, p' :: ps')
end

mutual
/-- `internal_commit` of `AndProver` (`zksk/composition.py:867-883`) and `OrProver` (`:605-626`). -/
def internalCommit : PTree E L P → Option (Dict Int) → PM (Val E × PTree E L P)
  | .leaf p, d => do
    let (v, p') ← ProverOps.internalCommit p d
    pure (v, .leaf p')
  | .and s subs, d => do
    let σ ← getStore
    liftE (Tree.validateComposition σ (Tree.and s (stmtOfL subs)))
    let d' ← Tree.updateRandomizers (Tree.and s (stmtOfL subs)) d
    let (vs, subs') ← internalCommitL subs d'
    pure (.list vs, .and s subs')
  | .or s idx stmts sub sims, _ => do
    let σ ← getStore
    liftE (Tree.validateComposition σ (Tree.or s (stmts.set idx (stmtOf sub))))
    let (v, sub') ← internalCommit sub none
    let vs ← liftE (orSlots stmts.length idx v (sims.map Sim.commitment))
    pure (.list vs, .or s idx stmts sub' sims)
/-- Loop of `AndProver.internal_commit`. -/
def internalCommitL : List (PTree E L P) → Dict Int → PM (List (Val E) × List (PTree E L P))
  | [], _ => pure ([], [])
  | p :: ps, d => do
    let (v, p') ← internalCommit p (some d)
    let (vs, ps') ← internalCommitL ps d
    pure (v :: vs, p' :: ps')
end

mutual
/-- `compute_response` of `AndProver` (`zksk/composition.py:885-889`) and `OrProver` (`:628-659`). -/
def computeResponse : PTree E L P → Int → PM (Val E)
  | .leaf p, c => ProverOps.computeResponse p c
  | .and _ subs, c => do
    let rs ← computeResponseL subs c
    pure (.list rs)
  | .or _ idx stmts sub sims, c => do
    let residual := findResidualChallenge (sims.map Sim.challenge) c challengeLength
    let r ← computeResponse sub residual
    let cs ← liftE (orSlots stmts.length idx residual (sims.map Sim.challenge))
    let rs ← liftE (orSlots stmts.length idx r (sims.map Sim.responses))
    pure (.tuple [.list (cs.map Val.int), .list rs])
/-- `[sub.compute_response(challenge) for sub in self.subs]`. -/
def computeResponseL : List (PTree E L P) → Int → PM (List (Val E))
  | [], _ => pure []
  | p :: ps, c => do
    let r ← computeResponse p c
    let rs ← computeResponseL ps c
    pure (r :: rs)
end

/-- `OrProver.setup_simulations` (`zksk/composition.py:577-586`): simulate all clauses but `idx`;
returns the statements (extended ones have been constructed) and the transcripts. -/
def setupSimulations (idx : Nat) : List (Tree L) → Nat → PM (List (Tree L) × List (Sim E))
  | [], _ => pure ([], [])
  | t :: ts, index =>
    if index = idx then do
      let (ts', sims) ← setupSimulations idx ts (index + 1)
      pure (t :: ts', sims)
    else do
      let t' ← Tree.prepareSim t
      let s ← Tree.simulate t' none none
      let (ts', sims) ← setupSimulations idx ts (index + 1)
      pure (t' :: ts', s :: sims)

/-- `random.SystemRandom().choice(possible)` of a non-empty list (`zksk/composition.py:471,481`). -/
def choice (possible : List Nat) : PM Nat := do
  let i ← draw possible.length
  match possible[i.toNat]? with
  | some x => pure x
  | none => raise .indexError

/-- The selection loop of `OrProofStmt.get_prover` (`zksk/composition.py:471-482`). `acts[i]` runs
`self.subproofs[i].get_prover(secrets_dict)`; `stmts` are the clauses in their current state. The
first argument bounds the number of iterations by the number of candidates. -/
def orLoop (acts : List (PM (Option (PTree E L P) × Tree L))) :
    Nat → List Nat → List (Tree L) → PM (Option (Nat × PTree E L P) × List (Tree L))
  | 0, _, stmts => pure (none, stmts)
  | fuel + 1, possible, stmts =>
    if possible.isEmpty then pure (none, stmts) else do
      let i ← choice possible
      match acts[i]? with
      | none => raise .indexError
      | some act => do
        let (p?, t') ← act
        let stmts' := stmts.set i t'
        match p? with
        | some p => pure (some (i, p), stmts')
        | none => orLoop acts fuel (possible.erase i) stmts'

/-- Indices of the clauses that are not marked as simulated (`zksk/composition.py:457-460`). -/
def candidates : List (Tree L) → Nat → List Nat
  | [], _ => []
  | t :: ts, i => if t.simulated then candidates ts (i + 1) else i :: candidates ts (i + 1)

/-- `if None in subs: raise ValueError` (`zksk/composition.py:750-752`). -/
def allSome {α : Type} : List (Option α) → Option (List α)
  | [] => some []
  | none :: _ => none
  | some a :: as => (allSome as).map (a :: ·)

mutual
/-- `get_prover` of `OrProofStmt` (`zksk/composition.py:441-483`) and `AndProofStmt` (`:738-754`). -/
def getProver : Tree L → Dict Int → PM (Option (PTree E L P) × Tree L)
  | .leaf l, d => do
    let (p?, l') ← ProverOps.getProver l d
    pure (p?.map .leaf, .leaf l')
  | .and s subs, d => do
    let σ ← getStore
    setStore (updateSecretValues σ d)
    if s then pure (none, .and s subs) else do
      let (ps, subs') ← getProverL subs d
      match allSome ps with
      | none => raise .valueError
      | some ps' => pure (some (.and s ps'), .and s subs')
  | .or s subs, d => do
    let σ ← getStore
    setStore (updateSecretValues σ d)
    if s then pure (none, .or s subs) else do
      let cands := candidates subs 0
      let (r, subs') ← orLoop (getProverActs subs d) cands.length cands subs
      match r with
      | none => pure (none, .or s subs')
      | some (i, p) => do
        let (subs'', sims) ← setupSimulations i subs' 0
        pure (some (.or s i subs'' p sims), .or s subs'')
/-- `[sub_proof.get_prover(secrets_dict) for sub_proof in self.subproofs]`. -/
def getProverL : List (Tree L) → Dict Int → PM (List (Option (PTree E L P)) × List (Tree L))
  | [], _ => pure ([], [])
  | t :: ts, d => do
    let (p?, t') ← getProver t d
    let (ps, ts') ← getProverL ts d
    pure (p? :: ps, t' :: ts')
/-- The calls `self.subproofs[i].get_prover(secrets_dict)`, not yet run. -/
def getProverActs : List (Tree L) → Dict Int → List (PM (Option (PTree E L P) × Tree L))
  | [], _ => []
  | t :: ts, d => getProver t d :: getProverActs ts d
end

/-- `get_nizk_proof(message)` (`zksk/base.py:135-166`). -/
def getNizkProof (env : Env E) (p : PTree E L P) (message : String) :
    PM (NIZK E × PTree E L P) := do
  let (precom, p1) ← precommit p
  let (com, p2) ← internalCommit p1 none
  let σ ← getStore
  let id ← liftE (Tree.proofId σ (stmtOf p2))
  let c ← liftE (env.fiatShamir id precom com message)
  let r ← computeResponse p2 c
  pure ({ challenge := c, responses := r, precommitment := precom, stmtHash := env.digest id }, p2)

end PTree

/-- `stmt.prove(secret_dict, message)` (`zksk/composition.py:191-198`): calling a method on a `None`
prover raises `AttributeError`. Returns the proof and the mutated statement. -/
def prove (P : Type) {L : Type} [StmtOps E L] [ProverOps E L P] (env : Env E) (t : Tree L)
    (d : Dict Int) (message : String) : PM (NIZK E × Tree L) := do
  let (p?, _) ← (PTree.getProver t d : PM (Option (PTree E L P) × Tree L))
  match p? with
  | none => raise .attributeError
  | some p => do
    let (nizk, p') ← PTree.getNizkProof env p message
    pure (nizk, PTree.stmtOf p')

/-! ### DLRep prover -/

/-- `DLRepProver` (`zksk/primitives/dlrep.py:202-248`): statement, secret values, and `self.ks`, which
exists only after committing. -/
structure DLRepProver (E : Type) where
  stmt : DLRep E
  secretValues : Dict Int
  ks : Option (List Int)

namespace DLRepProver

/-- `DLRep.get_prover` (`zksk/primitives/dlrep.py:108-139`).  Note line 126: `self.set_simulated()`
*sets* the flag and returns `None`, so the flag is never tested but always set.  The test of line 128
iterates over the list instead of the set of secrets, which makes no difference. Casting values to
`Bn` (lines 135-137) is the identity here. -/
def getProver (s : DLRep E) (d : Dict Int) : PM (Option (DLRepProver E) × DLRep E) := do
  let σ ← getStore
  let vals := Dict.update σ s.secretValues d
  let s' := { s with secretValues := vals, simulated := true }
  if vals.isEmpty || s.secretVars.any (fun x => !(Dict.has σ vals x)) then pure (none, s')
  else pure (some { stmt := s', secretValues := vals, ks := none }, s')

/-- The sum of lines 221-226 of `zksk/primitives/dlrep.py`. -/
def commitGo : Pt E → List Int → List (Pt E) → Except Err (Pt E)
  | acc, k :: ks, b :: bs => do
    let acc' ← acc.add (Pt.smul k b)
    commitGo acc' ks bs
  | acc, _, _ => .ok acc

/-- Commitment for given randomizers (`zksk/primitives/dlrep.py:221-228`). -/
def commitWith (s : DLRep E) (ks : List Int) : Except Err (Pt E) :=
  match s.bases with
  | [] => .error .indexError
  | b :: _ => commitGo b.grp.inf ks s.bases

/-- `DLRepProver.internal_commit` (`zksk/primitives/dlrep.py:205-228`). -/
def internalCommit (p : DLRepProver E) (d : Option (Dict Int)) : PM (Val E × DLRepProver E) := do
  let d' ← DLRep.updateRandomizers p.stmt d
  let σ ← getStore
  let ks ← liftE (DLRep.lookupAll σ d' p.stmt.secretVars)
  let com ← liftE (commitWith p.stmt ks)
  pure (.pt com, { p with ks := some ks })

/-- The list comprehension of `zksk/primitives/dlrep.py:244-247`. -/
def respondGo (σ : Store) (vals : Dict Int) (order : Nat) (c : Int) :
    List Sec → List Int → Except Err (List Int)
  | s :: ss, k :: ks => do
    let x ← Dict.get σ vals s
    let rs ← respondGo σ vals order c ss ks
    .ok ((x * c + k) % (order : Int) :: rs)
  | [], _ :: _ => .error .indexError
  | _, [] => .ok []

/-- `DLRepProver.compute_response` (`zksk/primitives/dlrep.py:230-248`). -/
def computeResponse (p : DLRepProver E) (c : Int) : PM (Val E) := do
  let σ ← getStore
  match p.stmt.bases, p.ks with
  | [], _ => raise .indexError
  | _, none => raise .attributeError
  | b :: _, some ks => do
    let rs ← liftE (respondGo σ p.secretValues b.grp.order c p.stmt.secretVars ks)
    pure (.list (rs.map Val.int))

end DLRepProver

instance : ProverOps E (DLRep E) (DLRepProver E) where
  stmtOf p := p.stmt
  getProver := DLRepProver.getProver
  precommit p := pure (.none, p)
  internalCommit := DLRepProver.internalCommit
  computeResponse := DLRepProver.computeResponse

/-- Provers of statements without extended leaves. -/
abbrev CoreProver (E : Type) := PTree E (DLRep E) (DLRepProver E)

/-! ### Extended prover -/

/-- `ExtendedProver` (`zksk/extended.py:165-211`). -/
structure ExtProver (E : Type) where
  stmt : Ext E
  secretValues : Dict Int
  constructed : Option (CoreProver E)

namespace ExtProver

/-- `ExtendedProofStmt.get_prover` (`zksk/extended.py:99-115`): always a prover; neither the simulated
flag nor the availability of secrets is looked at. -/
def getProver (s : Ext E) (d : Dict Int) : PM (Option (ExtProver E) × Ext E) := do
  let σ ← getStore
  setStore (updateSecretValues σ d)
  pure (some { stmt := s, secretValues := d, constructed := none }, s)

/-- `ExtendedProver.precommit` and `.process_precommitment` (`zksk/extended.py:194-211`).  The loop of
lines 197-201 pre-commits the sub-provers of the constructed prover and drops the results; for
constructed statements without extended leaves this has no effect and is omitted. -/
def precommit (p : ExtProver E) : PM (Val E × ExtProver E) := do
  let v ← p.stmt.spec.precommit
  let σ ← getStore
  let s' ← liftE (Ext.fullConstruct σ p.stmt v)
  let t ← liftE s'.inner
  let (cp, t') ← (PTree.getProver t p.secretValues : PM (Option (CoreProver E) × Core E))
  pure (v, { p with stmt := { s' with constructed := some t' }, constructed := cp })

/-- `ExtendedProver.internal_commit` (`zksk/extended.py:172-183`). -/
def internalCommit (p : ExtProver E) (d : Option (Dict Int)) : PM (Val E × ExtProver E) :=
  match p.stmt.constructed with
  | none => raise .statementSpec
  | some _ =>
    match p.constructed with
    | none => raise .attributeError
    | some cp => do
      let (v, cp') ← PTree.internalCommit cp d
      pure (v, { p with constructed := some cp' })

/-- `ExtendedProver.compute_response` (`zksk/extended.py:185-192`). -/
def computeResponse (p : ExtProver E) (c : Int) : PM (Val E) :=
  match p.constructed with
  | none => raise .attributeError
  | some cp => PTree.computeResponse cp c

end ExtProver

instance : ProverOps E (Ext E) (ExtProver E) where
  stmtOf p := p.stmt
  getProver := ExtProver.getProver
  precommit := ExtProver.precommit
  internalCommit := ExtProver.internalCommit
  computeResponse := ExtProver.computeResponse

/-- Prover of a leaf. -/
inductive LeafProver (E : Type) where
  | dlrep (p : DLRepProver E)
  | ext (p : ExtProver E)

instance : ProverOps E (Leaf E) (LeafProver E) where
  stmtOf
    | .dlrep p => .dlrep p.stmt
    | .ext p => .ext p.stmt
  getProver l d := match l with
    | .dlrep s => do
      let (p?, s') ← DLRepProver.getProver s d
      pure (p?.map .dlrep, .dlrep s')
    | .ext s => do
      let (p?, s') ← ExtProver.getProver s d
      pure (p?.map .ext, .ext s')
  precommit
    | .dlrep p => pure (.none, .dlrep p)
    | .ext p => do
      let (v, p') ← ExtProver.precommit p
      pure (v, .ext p')
  internalCommit p d := match p with
    | .dlrep p => do
      let (v, p') ← DLRepProver.internalCommit p d
      pure (v, .dlrep p')
    | .ext p => do
      let (v, p') ← ExtProver.internalCommit p d
      pure (v, .ext p')
  computeResponse p c := match p with
    | .dlrep p => DLRepProver.computeResponse p c
    | .ext p => ExtProver.computeResponse p c

/-- Provers of general statements. -/
abbrev StmtProver (E : Type) := PTree E (Leaf E) (LeafProver E)

end Zksk
