import Verif.Props.Answers
import Verif.Props.Atoms
import Verif.Props.Attach
import Verif.Props.Chain
import Verif.Props.CheckFull
import Verif.Props.ConBuilder
import Verif.Props.Copy
import Verif.Props.Cover
import Verif.Props.Decide
import Verif.Props.Disjoint
import Verif.Props.Distinct
import Verif.Props.DistinctCheck
import Verif.Props.DistinctDetect
import Verif.Props.DistinctTranslate
import Verif.Props.Enforced
import Verif.Props.FedSound
import Verif.Props.Final
import Verif.Props.First
import Verif.Props.FirstKept
import Verif.Props.FirstOpt
import Verif.Props.Given
import Verif.Props.Handed
import Verif.Props.Init
import Verif.Props.InitClause
import Verif.Props.IntervalSet
import Verif.Props.Levels
import Verif.Props.Nonlinear
import Verif.Props.NonlinearCheck
import Verif.Props.Normalize
import Verif.Props.ObjectiveCheck
import Verif.Props.Optimize
import Verif.Props.Options
import Verif.Props.OrderClauses
import Verif.Props.Overflow
import Verif.Props.Program
import Verif.Props.Propagator
import Verif.Props.Queue
import Verif.Props.Reports
import Verif.Props.Rounds
import Verif.Props.RunSound
import Verif.Props.Safe
import Verif.Props.SafeCheck
import Verif.Props.Simplified
import Verif.Props.Simplify
import Verif.Props.Solutions
import Verif.Props.Stale
import Verif.Props.Sum
import Verif.Props.SumCheck
import Verif.Props.Terms
import Verif.Props.Transform
import Verif.Props.Translate
import Verif.Props.TranslateCase
import Verif.Props.TranslateKept
import Verif.Props.TranslateLoop
import Verif.Props.TranslateRun
import Verif.Props.TranslateSolutions
import Verif.Props.Update
import Verif.Props.Util
import Verif.Props.VarState
import Verif.Props.Axioms
