import Verif.Props.Direct
import Verif.Props.RevEng
import Verif.Props.Backtrack
import Verif.Props.LinRecur
import Verif.Props.Macro
import Verif.Props.Simulator
import Verif.Props.CTL
import Verif.Props.CTLEnd
import Verif.Props.CPS
import Verif.Props.CPSCert
import Verif.Props.BacktrackBudget
import Verif.Props.Formats
import Verif.Props.Status
import Verif.Props.Morphett
import Verif.Props.Enum
import Verif.Props.Queue
import Verif.Props.Enumerate
import Verif.Props.MPI
import Verif.Props.Permute
import Verif.Props.Math
import Verif.Props.Expr
import Verif.Props.RuleFunc
import Verif.Props.ExpInt
import Verif.Props.ExpCompare
import Verif.Props.Prover
import Verif.Props.Tools
import Verif.Props.BlockFinder
import Verif.Props.Pipeline
import Verif.Props.PipelineLimits
import Verif.Props.FileTools
import Verif.Props.Recursive
import Verif.Props.RecursiveLimits
import Verif.Props.FilterTools
import Verif.Props.Limited
import Verif.Props.Validator
import Verif.Props.ValidatorText
import Verif.Props.CppFiles
import Verif.Props.QuickSim
import Verif.Props.QuickSimLimits
import Verif.Props.LinRecurComplete
import Verif.Props.RecordTools
import Verif.Props.Analyze
import Verif.Props.CppLazy
import Verif.Props.CppRecur
import Verif.Props.CppRecurEnum
import Verif.Props.LinearRule
import Verif.Props.RecLinear
import Verif.Props.ExpRule
import Verif.Props.FilterScripts
import Verif.Props.Convert
import Verif.Props.ExpNormal
import Verif.Props.ExprText
import Verif.Props.ExpText
import Verif.Props.ExpSym
import Verif.Props.RecursiveStrict
import Verif.Props.RecursiveSteps
import Verif.Props.RecursiveSafe
import Verif.Props.LineTools
import Verif.Props.Visual
import Verif.Props.Print
