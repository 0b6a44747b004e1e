import Verif.Props.Pool
import Verif.Props.TupleIter
import Verif.Props.PID
import Verif.Props.Rational
import Verif.Props.Permutation
import Verif.Props.FormalSum
import Verif.Props.MatrixView
import Verif.Props.MatrixOps
import Verif.Props.Smith
import Verif.Props.LinAlg
import Verif.Props.Real
import Verif.Props.Sparse
import Verif.Props.ConstMatrix
import Verif.Props.Module
import Verif.Props.Homology
import Verif.Props.FieldHomology
import Verif.Props.Graph
import Verif.Props.MaxTree
import Verif.Props.MultiGraph
import Verif.Props.Subdivide
import Verif.Proof.SubdivideRoot
import Verif.Props.SubdivideRoot
import Verif.Props.Simplicial
import Verif.Props.SimplicialCount
import Verif.Props.Geom
import Verif.Props.Delaunay
import Verif.Props.Analysis
import Verif.Props.EdgePath
import Verif.Props.EdgeFlow
import Verif.Props.EdgeFlowSub
import Verif.Props.CubeCplx
import Verif.Props.CubeMorse
import Verif.Model.Morse
import Verif.Proof.MorseEnum
import Verif.Proof.MorseArena
import Verif.Proof.MorseSound
import Verif.Props.Morse
import Verif.Proof.TreeSub
import Verif.Proof.MorseTree
import Verif.Props.MorseTree
import Verif.Proof.CellSet
import Verif.Proof.TreeHom
import Verif.Proof.TreeGen
import Verif.Proof.TreeInd
import Verif.Proof.TreeH1
import Verif.Props.TreeHom
import Verif.Model.Eigen
import Verif.Proof.Reflect
import Verif.Props.Hessenberg
import Verif.Proof.Francis
import Verif.Props.Francis
import Verif.Proof.QR
import Verif.Props.QR
import Verif.Props.Orthogonal
import Verif.Props.Tridiag
import Verif.Proof.Wilk
import Verif.Props.Wilkinson
import Verif.Proof.SymQR
import Verif.Proof.Weyl
import Verif.Proof.SymBack
import Verif.Props.SymSpectrum
import Verif.Props.SymSpectrumBad
import Verif.Model.Lattice
import Verif.Proof.LLL
import Verif.Props.Lattice
import Verif.Model.EigVec
import Verif.Props.EigVec
import Verif.Model.Embedding
import Verif.Props.Embedding
import Verif.Model.Display
import Verif.Proof.Text
import Verif.Props.TextRead
import Verif.Props.Text
import Verif.Props.TextGraph
import Verif.Props.TextCube
import Verif.Props.TextSGraph
import Verif.Props.TextMatrix
import Verif.Props.TextHom
import Verif.Model.SmithMachine
import Verif.Props.Machine
import Verif.Model.SimplicialMachine
import Verif.Props.SimplicialMachine
import Verif.Model.SmithField
import Verif.Proof.SmithField
import Verif.Proof.SmithSim
import Verif.Props.SmithField
import Verif.Props.SmithRational
import Verif.Model.Float64
import Verif.Model.FloatAlg
import Verif.Proof.Float64
import Verif.Proof.FloatSum
import Verif.Proof.FloatLU
import Verif.Proof.FloatSolve
import Verif.Proof.FloatSqrt
import Verif.Props.FloatMul
import Verif.Props.FloatLU
import Verif.Props.FloatSolve
import Verif.Props.FloatDet
import Verif.Props.FloatNorm
import Verif.Props.FloatGivens
import Verif.Proof.FloatNear
import Verif.Props.FloatHouse
import Verif.Props.FloatIEEE
import Verif.Model.FloatGeom
import Verif.Proof.FloatEval
import Verif.Proof.FloatPanic
import Verif.Proof.FloatCenter
import Verif.Proof.FloatCenter2
import Verif.Proof.FloatAux
import Verif.Proof.FloatHull
import Verif.Proof.DelaunayAgree
import Verif.Props.FloatCircle
import Verif.Props.FloatMargin
import Verif.Props.FloatDelaunay
import Verif.Props.FloatTriangulation
import Verif.Model.FnOrder
import Verif.Model.FnText
import Verif.Proof.FnOrder
import Verif.Proof.FnShape
import Verif.Proof.FnText
import Verif.Props.FnShape
import Verif.Props.FnText
import Verif.Proof.SimpHom
import Verif.Props.SimpHom
import Verif.Props.SimpExact
import Verif.Props.Euler
import Verif.Proof.SimpCalc
import Verif.Props.SimpCalc
import Verif.Props.FloatConst
import Verif.Proof.SimpSum
import Verif.Props.SimpSum
import Verif.Props.FloatSparse
import Verif.Model.Checked
import Verif.Props.Checked
import Verif.Props.CheckedRational
import Verif.Props.CheckedSum
import Verif.Props.FormalModule
import Verif.Props.FloatFormal
import Verif.Props.SimpWedge
import Verif.Props.SimpRank
import Verif.Props.Orders
import Verif.Props.UnivCoeff
import Verif.Props.CubeCount
import Verif.Props.SmithMinors
import Verif.Props.Laplacian
import Verif.Props.GraphLaplacian
import Verif.Props.Stellar
import Verif.Props.Barycentric
import Verif.Props.SimpGlue
import Verif.Props.MayerVietoris
import Verif.Props.FieldEuler
import Verif.Props.LaplacianMachine
import Verif.Props.Manifold
import Verif.Props.Boundary
import Verif.Props.ManifoldField
import Verif.Props.ManifoldCount
import Verif.Props.Skeleton
import Verif.Props.MayerSeq
import Verif.Props.SimpMorse
import Verif.Proof.OnePoint
import Verif.Props.OnePoint
import Verif.Proof.TwoPoints
import Verif.Props.TwoPoints
import Verif.Props.FieldComponents
import Verif.Proof.TreePoint
import Verif.Props.TreePoint
