import Verif.Model.Basic
import Verif.Model.Util
import Verif.Model.Tree
import Verif.Model.DLRep
import Verif.Model.Ext
import Verif.Model.Nizk
import Verif.Model.Prover
import Verif.Model.Interactive
import Verif.Spec
import Verif.Props.Arith
import Verif.Lemmas.Commit
import Verif.Props.Statement
import Verif.Lemmas.Complete
import Verif.Lemmas.Loose
import Verif.Props.Complete
import Verif.Props.Provers
import Verif.Props.Choice
import Verif.Props.Sound
import Verif.Props.Hiding
import Verif.Model.Expr
import Verif.Props.Expr
import Verif.Props.State
import Verif.Model.NotEqual
import Verif.Model.Range
import Verif.Model.BBS
import Verif.Props.NotEqual
import Verif.Props.Range
import Verif.Props.BBS
import Verif.Props.BBSProof
import Verif.Props.ExtComplete
import Verif.Props.NotEqualComplete
import Verif.Lemmas.PowerTwoRun
import Verif.Props.RangeComplete
import Verif.Lemmas.Frame
import Verif.Props.RangeBlocks
import Verif.Lemmas.BBSRun
import Verif.Props.BBSComplete
import Verif.Model.Codec
import Verif.SpecCodec
import Verif.Lemmas.Codec
import Verif.ExCodec
import Verif.Props.Serialization
import Verif.SpecTruth
import Verif.Lemmas.Truth
import Verif.Props.SoundStmt
import Verif.Lemmas.Witness
import Verif.Props.Witness
import Verif.SpecLeak
import Verif.Lemmas.Signs
import Verif.Lemmas.Hide
import Verif.Props.Reveal
import Verif.Lemmas.SimRun
import Verif.Props.Precommit
import Verif.SpecHide
import Verif.SpecPublic
import Verif.Lemmas.Inline
import Verif.Lemmas.StmtHvzk
import Verif.Lemmas.PublicPart
import Verif.Lemmas.HideRun
import Verif.Lemmas.SameDist
import Verif.Props.ExtHiding
import Verif.Props.ExtWitness
import Verif.Props.SimStmt
import Verif.Props.Draw
import Verif.Props.Library
import Verif.Props.Forgery
import Verif.Props.BlindIssue
import Verif.Props.Fork
import Verif.Props.Programmed
import Verif.Props.Own
import Verif.Props.BlindSound
import Verif.Props.Form
import Verif.Props.Self
import Verif.Props.Reuse
import Verif.Props.Given
import Verif.Props.Peers
import Verif.Props.Objects
import Verif.Props.Retry
import Verif.Props.Pairings
import Verif.Props.Tutorial
import Verif.Props.Wrong
import Verif.Props.Shared
import Verif.Props.Alias
import Verif.Props.AliasProver
import Verif.Props.Twice
import Verif.Props.Nested
import Verif.Props.Said
import Verif.Props.Pretend
import Verif.Props.PretendProof
import Verif.Props.PretendStmt
import Verif.Props.Plan
import Verif.SpecChance
import Verif.Lemmas.Chance
import Verif.Lemmas.ChanceDraw
import Verif.Lemmas.ChanceCommit
import Verif.Lemmas.ChanceProver
import Verif.Lemmas.ChanceRun
import Verif.Lemmas.ChanceAsk
import Verif.Lemmas.ChanceLib
import Verif.Props.Chance
import Verif.Lemmas.WrongExt
import Verif.Props.WrongExt
import Verif.Model.Scripts
import Verif.Lemmas.Scripts
import Verif.Props.Scripts
import Verif.SpecOracle
import Verif.Lemmas.Oracle
import Verif.Lemmas.OracleRun
import Verif.Props.Oracle
import Verif.Lemmas.OracleFork
import Verif.Props.OracleFork
import Verif.SpecInterview
import Verif.Lemmas.Interview
import Verif.Props.Interview
import Verif.Lemmas.Tame
import Verif.Props.HonestRange
import Verif.SpecMalleable
import Verif.Lemmas.Malleable
import Verif.Props.Malleable
import Verif.Lemmas.BigPrime
import Verif.Props.RangeInterview
import Verif.Props.RangeOracle
import Verif.Lemmas.WrongConj
import Verif.Props.WrongConj
import Verif.Props.PlanSig
import Verif.Props.TwiceOr
import Verif.Props.Apart
