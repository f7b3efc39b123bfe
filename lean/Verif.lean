import Verif.Py
import Verif.Comparator
import Verif.Props.Comparator
import Verif.Disjoint
import Verif.Props.Disjoint
import Verif.Graph.Directed
import Verif.Graph.DirectedWF
import Verif.Graph.Resid
import Verif.Props.Directed
import Verif.Graph.FlowTheory
import Verif.Graph.Bfs
import Verif.Graph.FordFulkerson
import Verif.Graph.Preflow
import Verif.Props.MaxFlow
import Verif.Props.MaxFlowLoop
import Verif.LP.Basic
import Verif.LP.Sef
import Verif.LP.BasicLemmas
import Verif.LP.Verify
import Verif.LP.Farkas
import Verif.LP.Duality
import Verif.LP.Slackness
import Verif.Props.LinearBasic
import Verif.Props.LinearDual
import Verif.Props.LinearVerify
import Verif.Props.LinearStrong
import Verif.LP.Simplex
import Verif.LP.BasisTheory
import Verif.LP.SimplexProof
import Verif.LP.Bland
import Verif.LP.SimplexAnswer
import Verif.LP.ExactInt
import Verif.LP.Rank
import Verif.LP.TwoPhase
import Verif.LP.TwoPhaseProof
import Verif.LP.TwoPhaseAnswer
import Verif.LP.Origin
import Verif.Props.LinearBasis
import Verif.Props.Simplex
import Verif.Props.TwoPhase
import Verif.Props.Solve
import Verif.LP.Extra
import Verif.LP.Rref
import Verif.LP.Heap
import Verif.LP.HeapCtor
import Verif.Props.LinearExtra
import Verif.Props.Rref
import Verif.Props.LinearAlias
import Verif.Props.LinearShared
import Verif.Graph.Undirected
import Verif.Graph.UndirectedWF
import Verif.Graph.UndirectedTheory
import Verif.Graph.UndirectedStrip
import Verif.Graph.UndirectedHeap
import Verif.Graph.StableSet
import Verif.Props.Undirected
import Verif.Props.UndirectedRemoved
import Verif.Props.UndirectedCopy
import Verif.Props.StableSet
import Verif.LP.Integer
import Verif.LP.IntegerProof
import Verif.LP.Minors
import Verif.LP.Scale
import Verif.LP.ExactDenom
import Verif.LP.TwoVar
import Verif.LP.TwoVarSef
import Verif.LP.IntegerBox
import Verif.Props.Integer
import Verif.Props.IntegerBox
import Verif.Props.IntegerValue
import Verif.Props.StableSetSolve
import Verif.Formulation.Equation
import Verif.Formulation.Program
import Verif.Formulation.EquationProof
import Verif.Formulation.ProgramProof
import Verif.Props.Formulation
import Verif.Props.FormulationProgram
import Verif.Props.FormulationSolve
import Verif.Parser.Regex
import Verif.Parser.Model
import Verif.Parser.GraphProof
import Verif.Parser.LinearProof
import Verif.Props.Parser
import Verif.Unconstrained.Model
import Verif.Unconstrained.Proof
import Verif.Unconstrained.Real
import Verif.Props.Unconstrained
import Verif.Props.LinearData
import Verif.LP.FormatSpec
import Verif.LP.Format
import Verif.LP.FormatProof
import Verif.LP.ReprProof
import Verif.Props.Format
import Verif.LP.Steps
import Verif.LP.StepsProof
import Verif.Props.Steps
import Verif.Graph.UndirectedText
import Verif.Props.UndirectedText
import Verif.Graph.UndirectedBuild
import Verif.Props.UndirectedBuild
import Verif.Graph.DirectedBuild
import Verif.Props.DirectedBuild
import Verif.Float.Rounding
import Verif.Float.Dot
import Verif.Float.Descent
import Verif.Float.Linear
import Verif.Props.FloatDescent
import Verif.Props.FloatLinear
import Verif.Conformance.Linear
import Verif.Conformance.Other
import Verif.Float.Flow
import Verif.Float.FlowExact
import Verif.Float.FlowBound
import Verif.Props.FloatFlow
import Verif.Formulation.Statement
import Verif.Formulation.StatementProof
import Verif.Props.Statement
import Verif.Formulation.Text
import Verif.Props.FormulationText
import Verif.LP.Getters
import Verif.Props.Getters
import Verif.LP.RankEq
import Verif.Props.SolveExact
import Verif.Props.FormulationExact
import Verif.Props.DirectedDemands
import Verif.Graph.OneWay
import Verif.Props.MaxFlowOneWay
import Verif.Props.IntegerLoop
import Verif.Props.PreflowLoop
import Verif.LP.Dependent
import Verif.Props.Dependent
import Verif.Unconstrained.Kinds
import Verif.Props.Newton
import Verif.Props.NewtonLocal
import Verif.Props.IntegerStart
import Verif.Props.Convex
import Verif.LP.HeapRefine
import Verif.Props.InPlace
import Verif.Props.FloatCertified
import Verif.Graph.EdgeHash
import Verif.Props.EdgeHash
import Verif.Float.Equation
import Verif.Float.EquationHom
import Verif.Float.EquationRead
import Verif.Float.EquationBound
import Verif.Float.PyNum
import Verif.Float.EquationInt
import Verif.Float.EquationSize
import Verif.Props.FloatFormulation
import Verif.Graph.PreflowSteps
import Verif.Props.PreflowSteps
import Verif.Graph.Rename
import Verif.Graph.RenameBuild
import Verif.Props.Rename
import Verif.Float.Generate
import Verif.Float.GenerateProof
import Verif.Float.GenerateInt
import Verif.Float.EquationFrame
import Verif.Float.GenerateBound
import Verif.Float.GenerateProgram
import Verif.Props.FloatGenerate
import Verif.Formulation.Nonlinear
import Verif.Props.Nonlinear
import Verif.Float.Sef
import Verif.Props.FloatSef
import Verif.Float.FordFulkerson
import Verif.Props.FloatFordFulkerson
import Verif.Float.WholeProgram
import Verif.Props.FloatChecked
import Verif.Float.Rref
import Verif.Props.FloatRref
import Verif.Float.Unimodular
import Verif.Float.Simplex
import Verif.Float.SimplexExact
import Verif.Float.SimplexIdeal
import Verif.Props.FloatSolve
import Verif.Float.Gauss
import Verif.Props.FloatGauss
import Verif.Float.Branch
import Verif.Props.FloatInteger
import Verif.Float.Bipartite
import Verif.Props.FloatStableSet
import Verif.Float.Grid
import Verif.Float.Dyadic
import Verif.Float.DyadicGauss
import Verif.Float.DyadicSimplex
import Verif.Props.FloatDyadic
import Verif.Float.DyadicBranch
import Verif.Float.OddCycle
import Verif.Float.Clusters
import Verif.Props.FloatSearch
import Verif.Graph.UndirectedRename
import Verif.Props.UndirectedRename
import Verif.Props.Reorder
import Verif.Graph.FlowUnits
import Verif.Props.FlowUnits
import Verif.Props.FlowChange
import Verif.Props.ProgramChange
import Verif.Graph.UndirectedCount
import Verif.Props.UndirectedChange
import Verif.Props.Instances
import Verif.Formulation.Labels
import Verif.Props.FormulationArrays
import Verif.Props.IntegerChange
import Verif.Graph.FlowPaths
import Verif.Props.FlowPaths
import Verif.Props.CanonicalPath
import Verif.Props.Restart
import Verif.Props.SpanningTree
import Verif.Props.Ranging
import Verif.Props.CutLaws
import Verif.Props.Units
import Verif.Props.Vertices
import Verif.Props.ResidualCut
import Verif.Props.FloatNewton
import Verif.Props.FloatInverse
import Verif.Props.FloatNewtonSolve
import Verif.Props.FloatDet
import Verif.Props.FloatFollow
import Verif.Props.FloatRay
import Verif.Float.OffBasis
import Verif.Props.FloatTwoPhase
import Verif.Float.ReverseNear
import Verif.Props.FloatSolveFollow
import Verif.Props.FloatOptimal
import Verif.Float.Value
import Verif.Props.FloatValue
