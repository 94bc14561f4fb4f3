import Verif.Lemmas.UnionFind
import Verif.Lemmas.Basic
import Verif.Lemmas.Explain
import Verif.Lemmas.Core
import Verif.Lemmas.Inv
import Verif.Lemmas.Add
import Verif.Lemmas.Rebuild
import Verif.Lemmas.Data
import Verif.Lemmas.Post
import Verif.Lemmas.Rep
import Verif.Lemmas.Hist
import Verif.Lemmas.AddExpr
import Verif.Examples
import Verif.Props.Closure
import Verif.Props.Structure
import Verif.Props.Rebuild
import Verif.Lemmas.Idem
import Verif.Model.EGraph
import Verif.Lemmas.Clean
import Verif.Lemmas.Terminate
import Verif.Model.RecExpr
import Verif.Model.Machine
import Verif.Lemmas.RecExpr
import Verif.Lemmas.Match
import Verif.Lemmas.Machine
import Verif.Lemmas.Lookup
import Verif.Lemmas.Compile
import Verif.Lemmas.Search
import Verif.Lemmas.Pattern
import Verif.ExampleTools
import Verif.Props.Match
import Verif.Model.Rewrite
import Verif.Spec.Rewrite
import Verif.Lemmas.MultiPattern
import Verif.Props.MultiPattern
import Verif.Lemmas.Apply
import Verif.Lemmas.Closed
import Verif.Props.Rewrite
import Verif.Model.Extract
import Verif.Spec.Extract
import Verif.Lemmas.Extract
import Verif.Props.Extract
import Verif.Model.Run
import Verif.Spec.Run
import Verif.Lemmas.Saturate
import Verif.Lemmas.Run
import Verif.Props.Run
import Verif.Props.Backoff
import Verif.Lemmas.Saturated
import Verif.Props.Saturate
import Verif.ExampleRun
import Verif.Props.Merge
import Verif.Props.IdToExpr
import Verif.Props.Queue
import Verif.Model.Text
import Verif.Spec.SexpText
import Verif.Lemmas.SexpText
import Verif.Props.SexpText
import Verif.Props.VarText
import Verif.Props.ExprText
import Verif.Model.Join
import Verif.Props.RecExpr
import Verif.Lemmas.UnionEqs
import Verif.Props.UnionEqualities
import Verif.Model.Mapper
import Verif.Lemmas.Mapper
import Verif.Props.Mapper
import Verif.Model.GraphOps
import Verif.Lemmas.IdToPattern
import Verif.Props.GraphUnion
import Verif.Lemmas.NodesKept
import Verif.Props.CopyGraph
import Verif.Lemmas.Intersect
import Verif.Lemmas.FromEnodes
import Verif.Props.GraphIntersect
import Verif.Model.Proof
import Verif.Model.ExplainPath
import Verif.Model.ShortPath
import Verif.Spec.Proof
import Verif.Lemmas.Flatten
import Verif.Lemmas.ExplainPath
import Verif.Lemmas.Dist
import Verif.Lemmas.TreePath
import Verif.Lemmas.ExplainTerm
import Verif.Lemmas.ShortFrame
import Verif.Spec.Explain
import Verif.Lemmas.CheckProof
import Verif.Lemmas.ExplainHist
import Verif.ExampleExplain
import Verif.Props.Explanations
import Verif.Lemmas.ExplainFuel
import Verif.ExampleLoop
import Verif.Props.ExplainLoop
import Verif.Model.LpExtract
import Verif.Spec.LpExtract
import Verif.Lemmas.LpCycles
import Verif.Lemmas.LpProgram
import Verif.Lemmas.LpSolution
import Verif.Lemmas.LpCost
import Verif.Props.LpExtract
import Verif.Lemmas.Modify
import Verif.ExampleFold
import Verif.Props.Modify
import Verif.Lemmas.Count
import Verif.Props.Counts
import Verif.Model.Convert
import Verif.Props.Convert
import Verif.Model.Checks
import Verif.Props.SelfCheck
import Verif.Model.ExplainCheck
import Verif.Props.ExplainCheck
import Verif.Lemmas.RunExplain
import Verif.Props.RunExplain
import Verif.Props.Simplify
import Verif.Spec.Describe
import Verif.Props.Describe
import Verif.Model.Language
import Verif.Props.Language
import Verif.Props.Serialize
import Verif.Spec.MultiRule
import Verif.Lemmas.MultiRule
import Verif.Props.MultiRule
import Verif.Model.MultiText
import Verif.Spec.MultiText
import Verif.Props.MultiText
import Verif.Props.CheckProof
import Verif.Spec.Cut
import Verif.Lemmas.Cut
import Verif.Props.Cut
import Verif.Lemmas.Cycles
import Verif.Props.Cycles
import Verif.Lemmas.GreedyHist
import Verif.Props.ExplainAll
import Verif.Model.ProofText
import Verif.Spec.ProofText
import Verif.Lemmas.ProofText
import Verif.Model.ProofSharing
import Verif.Spec.ProofSharing
import Verif.Lemmas.ProofSharing
import Verif.Lemmas.ProofSize
import Verif.Lemmas.ProofMade
import Verif.Lemmas.ProofEnds
import Verif.Lemmas.ProofLegible
import Verif.Lemmas.ProofAtoms
import Verif.Props.ProofText
import Verif.Props.ProofSize
import Verif.Spec.NovelHist
import Verif.Lemmas.Novel
import Verif.Lemmas.FlatLength
import Verif.Lemmas.ProofLength
import Verif.Props.ProofLength
import Verif.ExamplePlay
import Verif.Model.Classes
import Verif.Lemmas.Parents
import Verif.Props.Classes
import Verif.Model.Dot
import Verif.Lemmas.Dot
import Verif.Props.Dot
import Verif.Spec.Below
import Verif.Lemmas.ApplySteps
import Verif.Lemmas.Below
import Verif.Lemmas.RunBelow
import Verif.Lemmas.Same
import Verif.Lemmas.Calls
import Verif.Props.Below
import Verif.Props.Least
import Verif.Model.Children
import Verif.Props.Children
import Verif.Model.Counters
import Verif.Props.Counters
import Verif.Model.Macros
import Verif.Props.Macros
import Verif.Props.Still
import Verif.Props.Records
import Verif.Spec.Eager
import Verif.Lemmas.Eager
import Verif.Props.Eager
import Verif.Spec.Decide
import Verif.Props.Decide
import Verif.Props.Instantiate
import Verif.Props.Fold
import Verif.Props.Prune
import Verif.Props.PruneRun
import Verif.Props.Round
import Verif.Props.Guard
import Verif.Props.Quiet
import Verif.Props.Builder
import Verif.Props.Prove
import Verif.Props.Word
import Verif.Props.RunTotal
import Verif.Props.Finite
import Verif.Props.ExtractBy
import Verif.Props.PruneExtract
import Verif.Props.PruneBest
import Verif.Props.Resume
import Verif.Props.Fair
import Verif.Props.FairNames
import Verif.Props.PruneSearch
import Verif.Props.PruneMulti
import Verif.Props.Chase
import Verif.Props.ChaseFinite
import Verif.Props.ChaseBackoff
import Verif.Props.TestRunner
import Verif.Props.TestExplain
import Verif.Props.GuardChase
import Verif.Props.GuardLeast
