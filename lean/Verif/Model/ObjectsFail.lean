import Verif.Model.Objects

/-!
# Calls on statement objects that raise

`Verif/Model/Objects.lean` forgets what a call has changed before it raises.  In Python these changes stay: marks set by
`set_simulated()` inside `DLRep.get_prover` (`zksk/primitives/dlrep.py:126`), values written into dictionaries of
representations (`dlrep.py:122`) and into `Secret` objects (`zksk/expr.py:177-195`, called in
`zksk/composition.py:449,743`).  Here the same functions are written again with a state that survives exceptions;
`Verif/Lemmas/ObjectsFail.lean` proves that they agree with the functions there on calls that return, and on
the exceptions.
-/

namespace Zksk

variable {E : Type} [AddCommGroup E] [DecidableEq E]

/-- Programs on statement objects and secrets whose effects stay when they raise. -/
def KM (E α : Type) : Type := Objects E × World → Except Err α × (Objects E × World)

namespace KM

instance : Monad (KM E) where
  pure a := fun s => (.ok a, s)
  bind x f := fun s =>
    match x s with
    | (.ok a, s') => f a s'
    | (.error e, s') => (.error e, s')

/-- `raise e`. -/
def fail {α : Type} (e : Err) : KM E α := fun s => (.error e, s)

/-- The statement objects at the moment. -/
def objects : KM E (Objects E) := fun s => (.ok s.1, s)

/-- Replaces the statement objects. -/
def setObjects (h : Objects E) : KM E Unit := fun s => (.ok (), (h, s.2))

/-- A program which does not touch statement objects. (Simplified: if it raises, the random numbers it has drawn are
given back; the programs used here change nothing else before they raise.) -/
def other {α : Type} (x : PM α) : KM E α := fun s =>
  match x s.2 with
  | .ok (a, w') => (.ok a, (s.1, w'))
  | .error e => (.error e, s)

end KM

namespace Objects

/-- `getAll` with effects that stay (`zksk/composition.py:748`). -/
def tryAll (get : Nat → KM E (Option (HProver E))) : List Nat → KM E (List (Option (HProver E)))
  | [] => pure []
  | r :: rs => do
    let p? ← get r
    let ps ← tryAll get rs
    pure (p? :: ps)

/-- `getAny` with effects that stay (`zksk/composition.py:471-482`). -/
def tryAny (get : Nat → KM E (Option (HProver E))) (rs : List Nat) :
    Nat → List Nat → KM E (Option (Nat × HProver E))
  | 0, _ => pure none
  | fuel + 1, possible =>
    if possible.isEmpty then pure none else do
      let i ← KM.other (PTree.choice possible)
      match rs[i]? with
      | none => KM.fail .indexError
      | some r => do
        let p? ← get r
        match p? with
        | some p => pure (some (i, p))
        | none => tryAny get rs fuel (possible.erase i)

/-- `getProver` with effects that stay (`zksk/primitives/dlrep.py:108-139`, `zksk/composition.py:441-483,738-754`). -/
def tryGetProver (d : Dict Int) : Nat → Nat → KM E (Option (HProver E))
  | 0, _ => KM.fail .attributeError
  | n + 1, r => do
    let h ← KM.objects
    match h.objs[r]? with
    | none => KM.fail .attributeError
    | some (.rep lhs bases vars v _) =>
      match h.dicts[v]? with
      | none => KM.fail .attributeError
      | some vals0 => do
        let σ ← KM.other getStore
        let vals := Dict.update σ vals0 d
        KM.setObjects ⟨h.objs.set r (.rep lhs bases vars v true), h.dicts.set v vals, h.lists⟩
        if vals.isEmpty || vars.any (fun x => !(Dict.has σ vals x)) then pure none
        else pure (some (.rep r v none))
    | some (.all l b) =>
      match h.lists[l]? with
      | none => KM.fail .attributeError
      | some rs => do
        let σ ← KM.other getStore
        KM.other (setStore (updateSecretValues σ d))
        if b then pure none else do
          let ps ← tryAll (tryGetProver d n) rs
          match PTree.allSome ps with
          | none => KM.fail .valueError
          | some ps' => pure (some (.all r ps'))
    | some (.any l b) =>
      match h.lists[l]? with
      | none => KM.fail .attributeError
      | some rs => do
        let σ ← KM.other getStore
        KM.other (setStore (updateSecretValues σ d))
        if b then pure none else do
          let cands := candidates h rs 0
          let x ← tryAny (tryGetProver d n) rs cands.length cands
          match x with
          | none => pure none
          | some (i, p) => do
            let h1 ← KM.objects
            match PTree.allSome (rs.map (h1.read n)) with
            | none => KM.fail .attributeError
            | some ts => do
              let (_, sims) ← KM.other (PTree.setupSimulations i ts 0)
              pure (some (.any r i p sims))

/-- `stmt.get_prover(secret_dict)`: what it returns or raises, and objects and secrets afterwards in any case. -/
def tryProver (r : Nat) (d : Dict Int) : KM E (Option (HProver E)) := do
  let h ← KM.objects
  tryGetProver d h.objs.length r

/-- `stmt.prove(secret_dict, message)` (`zksk/composition.py:191-198`): what it returns or raises, and objects and
secrets afterwards in any case. -/
def tryProve (env : Env E) (r : Nat) (d : Dict Int) (message : String) : KM E (NIZK E) := do
  let p? ← tryProver r d
  match p? with
  | none => KM.fail .attributeError
  | some p => do
    let h1 ← KM.objects
    match p.see h1 with
    | none => KM.fail .attributeError
    | some q => do
      let (π, _) ← KM.other (PTree.getNizkProof env q message)
      pure π

/-- `stmt.simulate(challenge)` (`zksk/composition.py:300-308`): what it returns or raises, and objects afterwards. -/
def trySimulate (env : Env E) (r : Nat) (c : Option Int) : KM E (Sim E × List UInt8) := do
  let h ← KM.objects
  KM.setObjects (h.setSimulated r true)
  match (h.setSimulated r true).tree r with
  | none => KM.fail .attributeError
  | some t => do
    let (tr, id, _) ← KM.other (simulateTop env t c)
    pure (tr, id)

end Objects

end Zksk
