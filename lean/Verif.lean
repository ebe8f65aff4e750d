import Verif.Np
import Verif.Spec
import Verif.SpecGates
import Verif.Abs
import Verif.AbsGate
import Verif.Model.OperatorUtils
import Verif.Model.Apply
import Verif.Model.Noise
import Verif.Model.Gates
import Verif.Model.ApplyGates
import Verif.Lemmas.Index
import Verif.Lemmas.Axes
import Verif.Lemmas.Lab
import Verif.Lemmas.ApplyDense
import Verif.Lemmas.GateAlg
import Verif.Lemmas.Permute
import Verif.Lemmas.Expand
import Verif.Lemmas.Circuit
import Verif.Lemmas.Gates
import Verif.Lemmas.Unitary
import Verif.Lemmas.ApplyGates
import Verif.Lemmas.StdGates
import Verif.Lemmas.Misc
import Verif.Props.Apply
import Verif.SpecNoise
import Verif.Lemmas.Noise
import Verif.Lemmas.Channel
import Verif.Lemmas.NoiseErr
import Verif.Lemmas.MapArr
import Verif.Props.Noise
import Verif.Lemmas.Controlled
import Verif.Lemmas.Tensor
import Verif.Props.Tensor
import Verif.Lemmas.Grouping
import Verif.Props.Group
import Verif.Lemmas.Subst
import Verif.Lemmas.Applied
import Verif.Props.Gates
import Verif.Props.Relabel
import Verif.Props.Analog
import Verif.Model.States
import Verif.Model.Composite
import Verif.Model.Shots
import Verif.Model.Api
import Verif.AbsOp
import Verif.Lemmas.Composite
import Verif.Lemmas.TensorTree
import Verif.Lemmas.RunTree
import Verif.Lemmas.Small
import Verif.Lemmas.Expect
import Verif.Props.Composite
import Verif.Props.Expectation
import Verif.Props.ExpectModes
import Verif.Props.PureMixed
import Verif.SpecStates
import Verif.Lemmas.Choice
import Verif.Props.Sampling
import Verif.Props.States
import Verif.Props.Params
import Verif.Lemmas.Shots
import Verif.Props.Shots
import Verif.Props.ShotsExact
import Verif.Model.Gpsr
import Verif.AbsGrad
import Verif.Lemmas.Deriv
import Verif.Lemmas.Gpsr
import Verif.Lemmas.GpsrPaths
import Verif.Lemmas.GpsrJvp
import Verif.Lemmas.GpsrRename
import Verif.Lemmas.GpsrPlain
import Verif.Lemmas.GpsrCtl
import Verif.Lemmas.GpsrCtlPaths
import Verif.Props.Gpsr
import Verif.Props.GpsrPhase
import Verif.Props.GpsrControlled
import Verif.Model.GpsrShots
import Verif.AbsShots
import Verif.Lemmas.GpsrShots
import Verif.Props.GpsrShots
import Verif.Model.Hea
import Verif.Props.Hea
import Verif.Model.Pytree
import Verif.AbsTree
import Verif.Props.Pytree
import Verif.Model.Conversion
import Verif.Props.Conversion
import Verif.Model.Sparse
import Verif.AbsSparse
import Verif.Lemmas.Sparse
import Verif.Lemmas.SparseOps
import Verif.Lemmas.SparseRun
import Verif.Lemmas.SparseMixed
import Verif.Lemmas.SparseTree
import Verif.Props.Sparse
import Verif.Model.Adjoint
import Verif.Props.Adjoint
import Verif.Model.SparseTensor
import Verif.Lemmas.SparseTensor
import Verif.Props.SparseTensor
import Verif.Props.Jacobian
import Verif.Lemmas.RefuseDM
import Verif.Props.Constructors
import Verif.Props.ConstructorNoise
import Verif.Model.NegIndex
import Verif.Lemmas.NegIndex
import Verif.Props.NegIndex
import Verif.AbsEvo
import Verif.Lemmas.ExpInvol
import Verif.Lemmas.GpsrHam
import Verif.Lemmas.GpsrHamJvp
import Verif.Props.GpsrHam
import Verif.SpecShots
import Verif.Lemmas.Statistics
import Verif.Props.Statistics
import Verif.Props.DmExact
import Verif.Model.Argsort
import Verif.Lemmas.Argsort
import Verif.Props.Argsort
import Verif.SpecPauli
import Verif.Lemmas.Pauli
import Verif.Props.Vqe
import Verif.Props.Reads
import Verif.AbsHigher
import Verif.Model.GpsrHigher
import Verif.Lemmas.GpsrHigher
import Verif.Props.GpsrHigher
import Verif.AbsSpectrum
import Verif.Lemmas.Spectrum
import Verif.Props.Spectrum
import Verif.Props.Dqc
import Verif.Model.ArrayParams
import Verif.Props.ArrayParams
import Verif.SpecNoiseLaws
import Verif.Lemmas.NoiseEntry
import Verif.Props.NoiseLaws
import Verif.Lemmas.Fit
import Verif.Props.Fit
import Verif.Props.DefaultState
import Verif.Lemmas.KrausExact
import Verif.Props.KrausExact
import Verif.SpecShift
import Verif.Lemmas.Shift
import Verif.Props.GpsrDocs
import Verif.Props.IsParametric
import Verif.Props.GroupExact
import Verif.Props.GateObs
import Verif.Lemmas.AdjointLoop
import Verif.Props.AdjointLoop
import Verif.SpecIdentities
import Verif.Lemmas.Identities
import Verif.Props.Identities
import Verif.Lemmas.Smooth
import Verif.Props.Smooth
import Verif.Props.ShotsConst
import Verif.SpecNoiseBound
import Verif.Props.NoiseBound
import Verif.Lemmas.Lipschitz
import Verif.Props.Lipschitz
import Verif.SpecCone
import Verif.Lemmas.Cone
import Verif.Props.Cone
import Verif.SpecOverlap
import Verif.Props.Overlap
import Verif.Model.ArrayValues
import Verif.Lemmas.ArrayValues
import Verif.Props.ArrayValues
import Verif.Props.RunApi
import Verif.NpMap
import Verif.Model.Trace
import Verif.Lemmas.Trace
import Verif.Lemmas.TraceBase
import Verif.Lemmas.ExpBlock
import Verif.Lemmas.TraceSmooth
import Verif.Props.Trace
import Verif.Props.Characterise
import Verif.Props.Heisenberg
import Verif.Props.Measure
import Verif.Props.RandomState
import Verif.Props.EvolvingCircuits
import Verif.Props.EvolvingEnergies
import Verif.Model.AlignCheck
import Verif.Props.AlignCheck
import Verif.Props.TraceState
import Verif.Props.PytreeGrad
import Verif.Props.NumpyControl
import Verif.Model.Equality
import Verif.Props.Equality
import Verif.Props.Refusals
import Verif.Model.JitCache
import Verif.Props.JitCache
import Verif.SpecAlgorithms
import Verif.Lemmas.Algorithms
import Verif.Props.Logic
import Verif.Lemmas.Transforms
import Verif.Props.Algorithms
import Verif.Model.Rounding
import Verif.SpecRounding
import Verif.Lemmas.Rounding
import Verif.Props.Rounding
import Verif.SpecFloat
import Verif.Lemmas.Float
import Verif.Props.Float
import Verif.SpecTrotter
import Verif.Lemmas.Trotter
import Verif.Lemmas.PauliRotation
import Verif.Props.Trotter
import Verif.Props.Exact
import Verif.AbsKeys
import Verif.Lemmas.GpsrVariance
import Verif.Props.GpsrVariance
import Verif.Lemmas.Bernstein
import Verif.Lemmas.Descent
import Verif.Props.Descent
import Verif.Model.Printing
import Verif.AbsPrinting
import Verif.Lemmas.Printing
import Verif.Props.Printing
import Verif.Lemmas.Sgd
import Verif.Props.Sgd
import Verif.Props.SgdShared
import Verif.Model.Batch
import Verif.Lemmas.Batch
import Verif.Props.Batch
import Verif.Props.Losses
import Verif.Model.Jit
import Verif.Props.Jit
import Verif.AbsReverse
import Verif.Model.Reverse
import Verif.Lemmas.Reverse
import Verif.Props.Reverse
import Verif.Model.ReverseLosses
import Verif.Props.ReverseLosses
import Verif.Model.RoundedEnergy
import Verif.Lemmas.RoundedEnergy
import Verif.Props.RoundedEnergy
import Verif.Model.RoundedNoise
import Verif.SpecRoundedNoise
import Verif.Lemmas.RoundedNoise
import Verif.Props.RoundedNoise
import Verif.Lemmas.FloatDM
import Verif.Props.FloatDM
import Verif.Props.TrotterDM
import Verif.Lemmas.FloatEnergyDM
import Verif.Props.FloatEnergyDM
import Verif.Props.FloatVectorDM
import Verif.Props.NoiseBoundEvo
import Verif.Props.LipschitzEvo
import Verif.Props.LipschitzHam
import Verif.Props.LipschitzVec
import Verif.Props.NoiseBoundVec
