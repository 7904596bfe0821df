import Verif.Props.Hnf
import Verif.Props.Search
import Verif.Props.Direct
import Verif.Props.Dist
import Verif.Props.DirectRuns
import Verif.Props.MainHnf
import Verif.Props.Lattice
import Verif.Props.LatticeGroups
import Verif.Props.MatrixGroup
import Verif.Props.Bravais
import Verif.Props.Rotation
import Verif.Props.MatMath
import Verif.Props.OrientRel
import Verif.Props.Visual
import Verif.Props.Stereo
import Verif.Props.LLL
import Verif.Props.Martensite
import Verif.Props.Rank1
import Verif.Props.Twin
import Verif.Props.TwinSolve
import Verif.Props.TwinFrac
import Verif.Props.Habit
import Verif.Props.TetraTwin
import Verif.Props.TwinSys
import Verif.Props.LatOpt
import Verif.Props.SLTree
import Verif.Props.Report
import Verif.Props.Para
import Verif.Props.Heap
import Verif.Props.Init
import Verif.Spec.Complete
import Verif.Props.Complete
import Verif.Spec.Cofactor
import Verif.Props.Cofactor
import Verif.Model.Describe
import Verif.Spec.Describe
import Verif.Props.Describe
import Verif.Model.SetLaue
import Verif.Spec.Systems
import Verif.Props.SetLaue
import Verif.Props.SetLaueTrig
import Verif.Props.SetLaueSystems
import Verif.Props.SetLaueRhombo
import Verif.Model.LatCor
import Verif.Props.LatCor
import Verif.Props.LatCorRuns
import Verif.Props.LatCorLabel
import Verif.Model.LatOptPlane
import Verif.Props.LatOptPlane
import Verif.Spec.Quartic
import Verif.Model.Quartic
import Verif.Lemmas.QuarticRoots
import Verif.Props.Quartic
import Verif.Model.Micro
import Verif.Props.Micro
import Verif.Model.Box
import Verif.Spec.Box
import Verif.Props.Box
import Verif.Lemmas.LLLTerm
import Verif.Props.LLLTerm
import Verif.Model.LatCorHnf
import Verif.Lemmas.HnfMerge
import Verif.Props.LatCorHnf
import Verif.Props.LatCorHnfMissed
import Verif.Model.Solver
import Verif.Props.Solver
import Verif.Lemmas.Rounding
import Verif.Props.Rounding
import Verif.Props.Perturbed
import Verif.Props.Resume
import Verif.Props.DirectTrace
import Verif.Props.Variants
import Verif.Props.Python2
import Verif.Props.LatCorHnfCell
import Verif.Props.LLLSimilar
import Verif.Props.Units
import Verif.Props.VariantChoice
import Verif.Props.SolsText
import Verif.Props.DescribeText
import Verif.Spec.Frame
import Verif.Lemmas.Frame
import Verif.Props.Frame
import Verif.Props.Orientation
import Verif.Spec.Description
import Verif.Props.Planar
import Verif.Props.SelfRun
import Verif.Props.Description
import Verif.Props.Pipeline
import Verif.Props.Stretches
import Verif.Props.Coincide
import Verif.Props.Bain
import Verif.Props.CubeOnCube
import Verif.Props.Tetragonal
import Verif.Props.BainVariants
import Verif.Props.LatCorHnfAnyRun
import Verif.Props.TetraLaminate
import Verif.Props.TwinSwap
import Verif.Props.FrameTwins
import Verif.Props.Orthorhombic
import Verif.Props.OrthoTwins
import Verif.Props.Monoclinic
import Verif.Props.MonoTwins
import Verif.Props.TwinFamilies
import Verif.Props.SmallStretch
import Verif.Props.FaceDiagonal
import Verif.Props.FaceTwins
import Verif.Props.Trigonal
import Verif.Props.ThreeEdges
import Verif.Props.FirstToTwins
import Verif.Props.GenericTwins
import Verif.Props.AxisTwins
import Verif.Props.SmallCofactor
import Verif.Props.CofactorRounding
import Verif.Props.Accuracy
import Verif.Props.FractionAccuracy
import Verif.Props.BestRankOne
import Verif.Props.HabitAccuracy
import Verif.Props.SmallSwap
import Verif.Props.PlaneGroup
import Verif.Props.HabitComplete
import Verif.Props.SwapPlanes
import Verif.Props.Refuse
