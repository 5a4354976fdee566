import Verif.Spec.Basic
import Verif.Spec.Contract
import Verif.Model.Py
import Verif.Model.Vec
import Verif.Model.ProxOperator
import Verif.Model.Projection
import Verif.Model.Proximal
import Verif.Model.ProjOps
import Verif.Model.NonConvex
import Verif.Model.Intersection
import Verif.Model.L2
import Verif.Model.Stack
import Verif.Spec.Matrix
import Verif.Model.Nuclear
import Verif.Lemmas.Svd
import Verif.Lemmas.Prox
import Verif.Lemmas.Calculus
import Verif.Lemmas.Block
import Verif.Lemmas.Closed
import Verif.Lemmas.Dykstra
import Verif.Lemmas.NonConvex
import Verif.Props.Closed
import Verif.Props.Calculus
import Verif.Props.Projections
import Verif.Props.Projections2
import Verif.Props.NonConvex
import Verif.Props.NonConvex2
import Verif.Props.NonConvex3
import Verif.Props.Intersection
import Verif.Props.L2
import Verif.Props.Stack
import Verif.Props.Nuclear
import Verif.Spec.Smooth
import Verif.Model.Primal
import Verif.Lemmas.Intersection
import Verif.Lemmas.Loop
import Verif.Lemmas.Monotone
import Verif.Lemmas.Smooth
import Verif.Lemmas.Forward
import Verif.Props.ProxPoint
import Verif.Props.ProxGrad
import Verif.Props.Lasso
import Verif.Spec.Optim
import Verif.Lemmas.Splitting
import Verif.Props.Splitting
import Verif.Model.PrimalDual
import Verif.Lemmas.Saddle
import Verif.Props.PrimalDual
import Verif.Props.AdaptivePD
import Verif.Props.ADMML2
import Verif.Lemmas.Product
import Verif.Props.Parallel
import Verif.Props.GPG
import Verif.Model.Dykstra
import Verif.Props.Dykstra
import Verif.Props.DykstraClosed
import Verif.Props.Sum
import Verif.Model.Palm
import Verif.Props.LowRank
import Verif.Props.Palm
import Verif.Props.IPalm
import Verif.Props.Twist
import Verif.Model.Bregman
import Verif.Props.Bregman
import Verif.Spec.Callback
import Verif.Props.Callback
import Verif.Model.Show
import Verif.Props.Tolerance
import Verif.Model.Counters
import Verif.Props.Counters
import Verif.Props.StepGuard
import Verif.Model.SR3
import Verif.Props.SR3
import Verif.Props.Relaxed
import Verif.Model.PnP
import Verif.Props.PnP
import Verif.Model.GradTest
import Verif.Props.GradTest
import Verif.Lemmas.Duality
import Verif.Props.Slater
import Verif.Model.Segment
import Verif.Props.Segment
import Verif.Spec.Envelope
import Verif.Model.Envelope
import Verif.Lemmas.Envelope
import Verif.Lemmas.EnvelopeSearch
import Verif.Props.Envelope
import Verif.Spec.Pinv
import Verif.Model.Anderson
import Verif.Props.Anderson
import Verif.Props.Safeguard
import Verif.Model.TV
import Verif.Spec.TV
import Verif.Lemmas.TV
import Verif.Props.TV
import Verif.Model.Conv
import Verif.Spec.Conv
import Verif.Lemmas.Conv
import Verif.Props.Conv
import Verif.Model.Nonlinear
import Verif.Props.Nonlinear
import Verif.Props.NuclearW
import Verif.Model.SimplexEngines
import Verif.Props.SimplexEngines
import Verif.Model.Complex
import Verif.Props.Complex
import Verif.Props.Complex2
import Verif.Props.Complex3
import Verif.Props.Complex4
import Verif.Lemmas.Adaptive
import Verif.Props.AdaptiveConv
import Verif.Props.HQSConv
import Verif.Props.TwistConv
import Verif.Props.Stops
import Verif.Props.InPlace
import Verif.Props.Reruns
import Verif.Props.Equivalences
import Verif.Props.LinearRate
import Verif.Props.Inexact
import Verif.Props.Invariance
import Verif.Model.MutCalculus
import Verif.Props.InPlaceOps
import Verif.Model.Dtype
import Verif.Props.Dtype
import Verif.Props.Dtype2
import Verif.Props.Dtype3
import Verif.Props.Dtype4
import Verif.Model.Special
import Verif.Props.Special
import Verif.Props.Special2
import Verif.Props.Dtype5
import Verif.Spec.Rates
import Verif.Lemmas.Ergodic
import Verif.Props.Rates
import Verif.Props.Rates2
import Verif.Props.Steps
import Verif.Props.Symmetry
import Verif.Props.Symmetry2
import Verif.Props.Separate
import Verif.Props.Separate2
import Verif.Props.Feasible
import Verif.Props.Feasible2
import Verif.Props.Restart
import Verif.Props.Returns
import Verif.Model.Rounded
import Verif.Props.Rounded
import Verif.Props.Rounded2
import Verif.Props.Rounded3
import Verif.Props.Identify
import Verif.Props.Accuracy
import Verif.Props.Sensitivity
import Verif.Props.Algebra
import Verif.Lemmas.Divergence
import Verif.Props.Dichotomy
import Verif.Model.ComplexPenalties
import Verif.Props.Complex5
import Verif.Witness.Kit
import Verif.Witness.Solvers
import Verif.Witness.Solvers2
import Verif.Witness.Dykstra
import Verif.Props.TVWeights
import Verif.Model.ComplexSolve
import Verif.Props.ComplexSolve
import Verif.Model.ComplexTV
import Verif.Spec.ComplexTV
import Verif.Lemmas.DualFista
import Verif.Props.ComplexTV
import Verif.Model.ComplexMatrix
import Verif.Spec.ComplexMatrix
import Verif.Props.Complex6
import Verif.Spec.Lsqr
import Verif.Props.Lsqr
import Verif.Props.Edges
import Verif.Model.BilinearPG
import Verif.Props.BilinearPG
import Verif.Model.Aliasing
import Verif.Props.Aliasing
import Verif.Model.PPXACall
import Verif.Props.PPXACall
import Verif.Model.GPGWeights
import Verif.Props.GPGWeights
import Verif.Model.TwISTCall
import Verif.Props.TwISTCall
import Verif.Model.CallbackEdit
import Verif.Props.CallbackEdit
import Verif.Model.Attributes
import Verif.Props.Attributes
import Verif.Props.ComplexAnderson
import Verif.Model.Shared
import Verif.Props.Shared
import Verif.Model.Interrupt
import Verif.Props.Interrupt
import Verif.Model.ComplexBilinear
import Verif.Props.ComplexBilinear
import Verif.Spec.ComplexSpectral
import Verif.Model.ComplexSpectral
import Verif.Props.ComplexSpectral
import Verif.Model.ComplexAffine
import Verif.Props.ComplexAffine
import Verif.Props.CallbackAccel
import Verif.Model.GPGSum
import Verif.Props.GPGSum
import Verif.Props.ReturnsAPD
import Verif.Props.QuadraticCalls
import Verif.Props.RestartTol
import Verif.Model.SimplexInt64
import Verif.Props.SimplexInt64
import Verif.Props.RoundedBound
import Verif.Model.RoundedPG
import Verif.Props.RoundedPG
import Verif.Model.RoundedDR
import Verif.Props.RoundedDR
