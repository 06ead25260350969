import Verif.ActionGround
import Verif.Aggregate
import Verif.Algorithms
import Verif.Arith
import Verif.AspCosts
import Verif.AspNames
import Verif.AspText
import Verif.AtomText
import Verif.Bench
import Verif.Builtins
import Verif.CNF
import Verif.CNFLemmas
import Verif.ChangesLemmas
import Verif.Classify
import Verif.CompileNeg
import Verif.CompileNegLemmas
import Verif.CompileNegSpec
import Verif.ConstraintGround
import Verif.Containers
import Verif.Costs
import Verif.Csp
import Verif.CspFile
import Verif.CspSchema
import Verif.DL
import Verif.DLEq
import Verif.DLFactory
import Verif.DLPrims
import Verif.Effects
import Verif.EffectsLemmas
import Verif.EffectsSpec
import Verif.Elements
import Verif.Equality
import Verif.Evaluator
import Verif.ExSimp
import Verif.ExSimpLemmas
import Verif.ExprText
import Verif.Files
import Verif.Flatten
import Verif.FreeVars
import Verif.FreeVarsLemmas
import Verif.GroundAtoms
import Verif.Grounding
import Verif.HybridGround
import Verif.Induct
import Verif.LPGround
import Verif.LPGroundLemmas
import Verif.LangAccess
import Verif.LangCopy
import Verif.LangQueries
import Verif.Language
import Verif.LanguageLemmas
import Verif.LanguageTerm
import Verif.MatrixTerms
import Verif.Model
import Verif.ModelLemmas
import Verif.ModelText
import Verif.ModelTextLemmas
import Verif.NNF
import Verif.NNFLemmas
import Verif.NaivePlan
import Verif.Ndl
import Verif.NdlText
import Verif.Nodes
import Verif.NumTerms
import Verif.PddlCase
import Verif.PddlCaseEff
import Verif.PddlCaseFile
import Verif.PddlCaseLemmas
import Verif.PddlCaseRead
import Verif.PddlCons
import Verif.PddlDecl
import Verif.PddlDeclLemmas
import Verif.PddlDeclSpec
import Verif.PddlDeclText
import Verif.PddlDeclWide
import Verif.PddlEff
import Verif.PddlEffLemmas
import Verif.PddlEffSpec
import Verif.PddlFileLemmas
import Verif.PddlInit
import Verif.PddlInitLemmas
import Verif.PddlInitSpec
import Verif.PddlLexLemmas
import Verif.PddlMono
import Verif.PddlRead
import Verif.PddlReadLemmas
import Verif.PddlSem
import Verif.PddlSpec
import Verif.PddlText
import Verif.PddlTypes
import Verif.PddlWell
import Verif.PddlWrite
import Verif.Pipeline
import Verif.Ply
import Verif.PlyActions
import Verif.PlyDomain
import Verif.PlyLex
import Verif.Prenex
import Verif.PrenexLemmas
import Verif.Project
import Verif.ProjectSpec
import Verif.Props.ActionGround
import Verif.Props.Aggregate
import Verif.Props.Algorithms
import Verif.Props.Arith
import Verif.Props.AspCosts
import Verif.Props.AspNames
import Verif.Props.AspText
import Verif.Props.AtomText
import Verif.Props.BenchCounters
import Verif.Props.BenchFun
import Verif.Props.BenchPattern
import Verif.Props.BenchStrips
import Verif.Props.Builtins
import Verif.Props.CNF
import Verif.Props.Classify
import Verif.Props.CompileNeg
import Verif.Props.Conflicts
import Verif.Props.ConstraintGround
import Verif.Props.Constructors
import Verif.Props.Containers
import Verif.Props.Costs
import Verif.Props.Csp
import Verif.Props.CspFile
import Verif.Props.CspSchema
import Verif.Props.DL
import Verif.Props.DLEq
import Verif.Props.DLFactory
import Verif.Props.DLPrims
import Verif.Props.Effects
import Verif.Props.Elements
import Verif.Props.Evaluator
import Verif.Props.ExSimp
import Verif.Props.ExprText
import Verif.Props.Files
import Verif.Props.GroundAtoms
import Verif.Props.Grounding
import Verif.Props.HybridGround
import Verif.Props.LPGround
import Verif.Props.LangAccess
import Verif.Props.LangCopy
import Verif.Props.LangQueries
import Verif.Props.Language
import Verif.Props.MatrixTerms
import Verif.Props.Model
import Verif.Props.ModelText
import Verif.Props.NNF
import Verif.Props.NaivePlan
import Verif.Props.Ndl
import Verif.Props.NdlText
import Verif.Props.Nodes
import Verif.Props.NumTerms
import Verif.Props.Pddl
import Verif.Props.PddlAction
import Verif.Props.PddlAgain
import Verif.Props.PddlCase
import Verif.Props.PddlCons
import Verif.Props.PddlFile
import Verif.Props.PddlInit
import Verif.Props.PddlPlan
import Verif.Props.PddlTypes
import Verif.Props.PddlWell
import Verif.Props.Pipeline
import Verif.Props.PlanNodes
import Verif.Props.PlansAgain
import Verif.Props.Ply
import Verif.Props.PlyActions
import Verif.Props.PlyDomain
import Verif.Props.PlyDurative
import Verif.Props.PlyLex
import Verif.Props.PlyProblem
import Verif.Props.Prenex
import Verif.Props.PrenexRename
import Verif.Props.Project
import Verif.Props.QE
import Verif.Props.Rddl
import Verif.Props.RddlModel
import Verif.Props.RddlSections
import Verif.Props.RddlWriter
import Verif.Props.Reach
import Verif.Props.ReachExact
import Verif.Props.RegText
import Verif.Props.Registries
import Verif.Props.Relaxation
import Verif.Props.Sas
import Verif.Props.SasJson
import Verif.Props.SasWriter
import Verif.Props.SchemaGraph
import Verif.Props.Search
import Verif.Props.SearchNodes
import Verif.Props.SearchText
import Verif.Props.Simplify
import Verif.Props.SimplifySymbols
import Verif.Props.SortIds
import Verif.Props.StateVarLite
import Verif.Props.StateVars
import Verif.Props.StrategyVars
import Verif.Props.Subst
import Verif.Props.Symbols
import Verif.Props.TaskPlan
import Verif.Props.Temporal
import Verif.Props.TermFluency
import Verif.Props.Theories
import Verif.Props.Timing
import Verif.Props.UniversalEffects
import Verif.Props.VecEffects
import Verif.Props.Visitors
import Verif.QE
import Verif.QELemmas
import Verif.Rddl
import Verif.RddlModel
import Verif.RddlSections
import Verif.RddlWriter
import Verif.Reach
import Verif.ReachComplete
import Verif.ReachExact
import Verif.ReachLemmas
import Verif.ReachProgram
import Verif.ReachRelaxed
import Verif.ReachSpec
import Verif.ReachTight
import Verif.RegText
import Verif.Registries
import Verif.Relaxation
import Verif.Sas
import Verif.SasJson
import Verif.SasWriter
import Verif.SchemaGraph
import Verif.Search
import Verif.SearchNodes
import Verif.Semantics
import Verif.Shapes
import Verif.Simplify
import Verif.SimplifyEffects
import Verif.SimplifyLemmas
import Verif.SimplifyNormal
import Verif.SortIds
import Verif.SortIdsLemmas
import Verif.StateVarLite
import Verif.StrategyVars
import Verif.Subst
import Verif.SubstLemmas
import Verif.Symbols
import Verif.Syntax
import Verif.TaskInput
import Verif.Temporal
import Verif.TemporalLemmas
import Verif.TermFluency
import Verif.Theories
import Verif.TheoriesLemmas
import Verif.Timing
import Verif.VecEffects
import Verif.Visitors
