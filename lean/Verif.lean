import Verif.AmpClosed
import Verif.AmpDeriv
import Verif.AmpRename
import Verif.Argsort
import Verif.ArrayAlg
import Verif.ArrayAnsatz
import Verif.AutoShape
import Verif.AutoShapeMarg
import Verif.Backends
import Verif.BargmannGates
import Verif.BargmannHeis
import Verif.BargmannSymp
import Verif.BargmannUnit
import Verif.Batch
import Verif.Beamsplitter
import Verif.Binomial
import Verif.BinomialMath
import Verif.CGI
import Verif.CGIEx
import Verif.CGIProps
import Verif.CGIStages
import Verif.CGIStagesEx
import Verif.Caches
import Verif.Channel
import Verif.ChannelAct
import Verif.ChannelCP
import Verif.ChannelEx
import Verif.ChannelIdle
import Verif.ChannelNamed
import Verif.ChannelTP
import Verif.ChannelXY
import Verif.CircuitSer
import Verif.Circuits
import Verif.CompAdd
import Verif.CompAddClasses
import Verif.CompSem
import Verif.CompSemAlg
import Verif.Compact
import Verif.CompactEx
import Verif.CompactGrad
import Verif.CompactLeft
import Verif.CompactLeftEx
import Verif.CompactLeftGrad
import Verif.CompactProps
import Verif.Component
import Verif.ComponentAdj
import Verif.ComponentCircuit
import Verif.ComponentContract
import Verif.ComponentDual
import Verif.ComponentReturn
import Verif.ComponentSeq
import Verif.ComponentShift
import Verif.Constructors
import Verif.Contract
import Verif.ContractBad
import Verif.ContractDef
import Verif.ContractEx
import Verif.ContractGauss
import Verif.ContractJoin
import Verif.ContractKernel
import Verif.ContractMain
import Verif.ContractProps
import Verif.ContractThm
import Verif.Displacement
import Verif.Drawing
import Verif.Effects
import Verif.Einsum
import Verif.EinsumEx
import Verif.EinsumMain
import Verif.EinsumPath
import Verif.EinsumProps
import Verif.Entropy
import Verif.ExpectSpec
import Verif.Expectation
import Verif.ExpectationLaws
import Verif.ExpectationProps
import Verif.FastDiag
import Verif.FastDiagCoords
import Verif.FastDiagMain
import Verif.FastDiagProps
import Verif.FockArray
import Verif.FockDist
import Verif.FockFidelity
import Verif.FockFidelityComp
import Verif.FockFidelityMat
import Verif.FockFidelityProps
import Verif.FockGates
import Verif.FockJoint
import Verif.FockNorms
import Verif.FockNormsProps
import Verif.FockRec
import Verif.FockSeries
import Verif.FockSpec
import Verif.FockUnique
import Verif.GateGrads
import Verif.GaussComplex
import Verif.GaussMoments
import Verif.GaussOverlap
import Verif.GaussReal
import Verif.GaussState
import Verif.GaussStein
import Verif.GaussSymm
import Verif.Gradients
import Verif.Herm
import Verif.HermPull
import Verif.HermiteBatch
import Verif.Homodyne
import Verif.HomodyneFock
import Verif.Inverse
import Verif.InverseProps
import Verif.InverseUnit
import Verif.Kernel
import Verif.LazyAnsatz
import Verif.LightCopy
import Verif.Logger
import Verif.Manifold
import Verif.Mixed
import Verif.MixedAmp
import Verif.MixedCall
import Verif.MixedEinsum
import Verif.MixedFock
import Verif.MixedGF
import Verif.MixedLayout
import Verif.MixedMM
import Verif.MixedRight
import Verif.MixedStages
import Verif.NumberState
import Verif.Optimizer
import Verif.Oscillator
import Verif.Params
import Verif.PathGraph
import Verif.PathOptimal
import Verif.PathSearch
import Verif.PathShapes
import Verif.Paths
import Verif.PhaseC
import Verif.PhaseChar
import Verif.PhaseEvolve
import Verif.PhaseEx
import Verif.PhaseEx2
import Verif.PhaseFidelity
import Verif.PhaseHusimi
import Verif.PhaseMoments
import Verif.PhaseNoise
import Verif.PhaseOverlap
import Verif.PhasePos
import Verif.PhasePure
import Verif.PhasePurity
import Verif.PhaseReduced
import Verif.PhaseShift
import Verif.PhaseSpace
import Verif.PhaseUncert
import Verif.PhaseWigner
import Verif.PolyExp
import Verif.PolyExpAnd
import Verif.PolyExpDecomp
import Verif.PolyExpEval
import Verif.PolyExpJoin
import Verif.PolyExpProps
import Verif.PurityMat
import Verif.PyTree
import Verif.QuadAxis
import Verif.QuadDef
import Verif.QuadForm
import Verif.QuadLabels
import Verif.QuadProps
import Verif.QuadRel
import Verif.QuadSign
import Verif.QuadSteps
import Verif.RealIntegral
import Verif.RealJoin
import Verif.Reproduce
import Verif.Samplers
import Verif.SamplersHomodyne
import Verif.SamplersLaw
import Verif.SamplersSeed
import Verif.Sauron
import Verif.ScalarPart
import Verif.Schwinger
import Verif.SchwingerProps
import Verif.Separable
import Verif.Serialize
import Verif.Settings
import Verif.Simplify
import Verif.SimplifyEq
import Verif.Sqrtm
import Verif.Stellar
import Verif.StellarDM
import Verif.StellarDMFails
import Verif.StellarDMFinal
import Verif.StellarDMGeneric
import Verif.StellarDMMixed
import Verif.StellarDMMixedFinal
import Verif.StellarDMMixedMain
import Verif.StellarDMPhys
import Verif.StellarDMSchur
import Verif.StellarDMTrace
import Verif.StellarEx
import Verif.StellarPhys
import Verif.StepJac
import Verif.SympEigs
import Verif.Symplectics
import Verif.TensorUpdate
import Verif.ToBargmann
import Verif.TraceOut
import Verif.TraceOutOne
import Verif.TraceOutProps
import Verif.TraceOutTwo
import Verif.Triples
import Verif.TriplesAct
import Verif.TriplesEx
import Verif.TriplesFock
import Verif.TriplesGates
import Verif.TriplesKraus
import Verif.TriplesLaws
import Verif.TriplesNorm
import Verif.TriplesOne
import Verif.TriplesOverride
import Verif.TriplesTrace
import Verif.UnionPath
import Verif.Vanilla
import Verif.Wigner
import Verif.Williamson
import Verif.Wires
import Verif.WiresComp
import Verif.WiresEq
import Verif.WiresLabels
import Verif.WiresLemmas
import Verif.WiresMatmul
import Verif.WiresMatmul2
import Verif.WiresMatmul3
import Verif.WiresProps
import Verif.WiresSpec
