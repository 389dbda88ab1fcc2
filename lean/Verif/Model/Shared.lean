import Verif.Model.Interactive

/-! # Several conversations over one extended statement object (`zksk/extended.py`, `zksk/base.py`)

`get_prover()` and `get_verifier()` of an extended statement hand out objects that keep a reference to
the statement.  The precommitment and the constructed statement are attributes of the statement
(`zksk/extended.py:85-91,137-140,160-162`), whereas the constructed prover and the constructed verifier
are attributes of the objects handed out (`:208-211,225`).  `Model/Prover.lean` and
`Model/Interactive.lean` give every prover and every verifier a statement of its own; here all of them
share one. -/

namespace Zksk

variable {E : Type} [AddCommGroup E] [DecidableEq E]

namespace Shared

/-- An `ExtendedProver` without its reference to the statement (`zksk/extended.py:165-211`). -/
structure ProverObj (E : Type) where
  secretValues : Dict Int
  constructed : Option (CoreProver E)

/-- An `ExtendedVerifier` without its reference to the statement (`zksk/extended.py:214-245`): the
constructed verifier and what `send_challenge` stored, i.e. commitment and challenge. -/
structure VerifierObj (E : Type) where
  constructed : Option (Core E)
  commitment : Option (Val E)
  challenge : Option Int

/-- One extended statement object and every prover and verifier obtained from it.  The field
`verifier` of `stmt` is not used. -/
structure Objs (E : Type) where
  stmt : Ext E
  provers : List (ProverObj E)
  verifiers : List (VerifierObj E)

/-- The method calls. -/
inductive Call (E : Type) where
  /-- `stmt.get_prover(d)` -/
  | getProver (d : Dict Int)
  /-- `provers[i].precommit()` -/
  | precommit (i : Nat)
  /-- `provers[i].commit()` -/
  | commit (i : Nat)
  /-- `provers[i].compute_response(c)` -/
  | respond (i : Nat) (c : Int)
  /-- `stmt.get_verifier()` -/
  | getVerifier
  /-- `verifiers[j].process_precommitment(v)` -/
  | process (j : Nat) (v : Val E)
  /-- `verifiers[j].send_challenge((h, com))` -/
  | challenge (j : Nat) (h : List UInt8) (com : Val E)
  /-- `verifiers[j].verify(r)` -/
  | verify (j : Nat) (r : Val E)
  /-- `stmt.prove(d, message)` -/
  | prove (d : Dict Int) (message : String)
  /-- `stmt.verify(nizk, message)` -/
  | check (nizk : NIZK E) (message : String)

/-- What a call returns. -/
inductive Reply (E : Type) where
  | unit
  | val (v : Val E)
  | commitment (h : List UInt8) (com : Val E)
  | challenge (c : Int)
  | verdict (b : Bool)
  | proof (n : NIZK E)

/-- The reply or the exception, the objects afterwards and the heap afterwards. -/
abbrev Outcome (E : Type) := Except Err (Reply E) × Objs E × World

/-- A prover with the statement it refers to. -/
def Objs.prover (o : Objs E) (p : ProverObj E) : ExtProver E :=
  { stmt := o.stmt, secretValues := p.secretValues, constructed := p.constructed }

/-- A verifier with the statement it refers to. -/
def Objs.verifier (o : Objs E) (v : VerifierObj E) : Stmt E :=
  .leaf (.ext { o.stmt with verifier := v.constructed })

/-- `full_construct_stmt` (`zksk/extended.py:137-140`), with its effect when `construct_stmt` raises:
the precommitment has been replaced, the constructed statement has not. -/
def fullConstruct (σ : Store) (o : Objs E) (v : Val E) : Except Err (Core E) × Objs E :=
  match o.stmt.spec.construct σ v with
  | .error e => (.error e, { o with stmt := { o.stmt with precommitment := v } })
  | .ok t => (.ok t, { o with stmt := { o.stmt with precommitment := v, constructed := some t } })

/-- `ExtendedProver.precommit` (`zksk/extended.py:160-162,194-211`) of the prover object `p` with
number `i`.  The loop over the sub-provers is omitted as in `ExtProver.precommit`.  Simplification: a
precommitment computation or a `get_prover` that raises leaves the heap as it was before. -/
def precommit (o : Objs E) (i : Nat) (p : ProverObj E) (w : World) : Outcome E :=
  match o.stmt.spec.precommit w with
  | .error e => (.error e, o, w)
  | .ok (v, w1) =>
    match fullConstruct w1.store o v with
    | (.error e, o1) => (.error e, o1, w1)
    | (.ok t, o1) =>
      match (PTree.getProver t p.secretValues : PM (Option (CoreProver E) × Core E)) w1 with
      | .error e => (.error e, o1, w1)
      | .ok ((cp, t'), w2) =>
        (.ok (.val v), { o1 with stmt := { o1.stmt with constructed := some t' }
                                 provers := o1.provers.set i { p with constructed := cp } }, w2)

/-- `Prover.commit` (`zksk/base.py:122-133`): the hash of the statement the prover refers to, then the
commitment of the constructed prover. -/
def commit (env : Env E) (o : Objs E) (i : Nat) (p : ProverObj E) (w : World) : Outcome E :=
  match Tree.proofId w.store (.leaf (.ext o.stmt) : Stmt E) with
  | .error e => (.error e, o, w)
  | .ok id =>
    match (o.prover p).internalCommit none w with
    | .error e => (.error e, o, w)
    | .ok ((com, p'), w1) =>
      (.ok (.commitment (env.digest id) com),
        { o with provers := o.provers.set i { p with constructed := p'.constructed } }, w1)

/-- `ExtendedProver.compute_response` (`zksk/extended.py:185-192`). -/
def respond (o : Objs E) (p : ProverObj E) (c : Int) (w : World) : Outcome E :=
  match (o.prover p).computeResponse c w with
  | .error e => (.error e, o, w)
  | .ok (r, w1) => (.ok (.val r), o, w1)

/-- `ExtendedVerifier.process_precommitment` (`zksk/extended.py:219-225`). -/
def process (o : Objs E) (j : Nat) (x : VerifierObj E) (v : Val E) (w : World) : Outcome E :=
  match fullConstruct w.store o v with
  | (.error e, o1) => (.error e, o1, w)
  | (.ok t, o1) =>
    (.ok .unit, { o1 with verifiers := o1.verifiers.set j { x with constructed := some (Tree.freshVerifier t) } }, w)

/-- `ExtendedVerifier.send_challenge` (`zksk/extended.py:227-237`): the commitment is stored first. -/
def challenge (env : Env E) (o : Objs E) (j : Nat) (x : VerifierObj E) (h : List UInt8) (com : Val E)
    (w : World) : Outcome E :=
  match sendChallenge env w.store (o.verifier x) h w with
  | .error e => (.error e, { o with verifiers := o.verifiers.set j { x with commitment := some com } }, w)
  | .ok (c, w1) =>
    (.ok (.challenge c),
      { o with verifiers := o.verifiers.set j { x with commitment := some com, challenge := some c } }, w1)

/-- `Verifier.verify` (`zksk/base.py:212-231`).  A verifier that has sent no challenge has no attribute
`challenge` when it comes to recomputing the commitment. -/
def verifyCall (o : Objs E) (x : VerifierObj E) (r : Val E) (w : World) : Outcome E :=
  match x.commitment, x.challenge with
  | some com, some c => ((verifyResponse w.store (o.verifier x) com c r).map .verdict, o, w)
  | _, _ =>
    match preVerification w.store (o.verifier x) r with
    | .error e => (.error e, o, w)
    | .ok _ => (.error .attributeError, o, w)

/-- `stmt.prove` (`zksk/composition.py:191-198`); the prover is dropped afterwards.  Simplification: if
it raises, statement and heap are left as they were before, where Python may have replaced the
precommitment and the constructed statement. -/
def proveCall (env : Env E) (o : Objs E) (d : Dict Int) (message : String) (w : World) : Outcome E :=
  match Zksk.prove (LeafProver E) env (.leaf (.ext o.stmt) : Stmt E) d message w with
  | .error e => (.error e, o, w)
  | .ok ((n, t), w1) =>
    match t with
    | .leaf (.ext s) => (.ok (.proof n), { o with stmt := s }, w1)
    | _ => (.ok (.proof n), o, w1)

/-- `stmt.verify` (`zksk/composition.py:200-205`); the verifier is dropped afterwards.  The effect on
the statement is that of `process_precommitment` (`zksk/base.py:249-250`). -/
def checkCall (env : Env E) (o : Objs E) (n : NIZK E) (message : String) (w : World) : Outcome E :=
  ((Zksk.verify env w.store (.leaf (.ext o.stmt) : Stmt E) n message).map .verdict,
    (if n.precommitment.isNone then o else (fullConstruct w.store o n.precommitment).2), w)

/-- One call.  A call on an object that does not exist is an `IndexError` of the caller. -/
def step (env : Env E) (o : Objs E) (w : World) : Call E → Outcome E
  | .getProver d =>
    -- `zksk/extended.py:99-115`
    (.ok .unit, { o with provers := o.provers ++ [⟨d, none⟩] },
      { w with store := updateSecretValues w.store d })
  | .precommit i =>
    match o.provers[i]? with
    | none => (.error .indexError, o, w)
    | some p => precommit o i p w
  | .commit i =>
    match o.provers[i]? with
    | none => (.error .indexError, o, w)
    | some p => commit env o i p w
  | .respond i c =>
    match o.provers[i]? with
    | none => (.error .indexError, o, w)
    | some p => respond o p c w
  | .getVerifier =>
    -- `zksk/composition.py:169-173`
    (.ok .unit, { o with verifiers := o.verifiers ++ [⟨none, none, none⟩] }, w)
  | .process j v =>
    match o.verifiers[j]? with
    | none => (.error .indexError, o, w)
    | some x => process o j x v w
  | .challenge j h com =>
    match o.verifiers[j]? with
    | none => (.error .indexError, o, w)
    | some x => challenge env o j x h com w
  | .verify j r =>
    match o.verifiers[j]? with
    | none => (.error .indexError, o, w)
    | some x => verifyCall o x r w
  | .prove d message => proveCall env o d message w
  | .check n message => checkCall env o n message w

/-- A sequence of calls; a caller that catches exceptions goes on after them. -/
def run (env : Env E) : List (Call E) → Objs E → World → Objs E × World
  | [], o, w => (o, w)
  | k :: ks, o, w => let (_, o1, w1) := step env o w k; run env ks o1 w1

end Shared
end Zksk
