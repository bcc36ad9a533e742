import Verif.Lemmas.Adaptive
import Verif.Lemmas.BoxFourier
import Verif.Lemmas.BoxSeries
import Verif.Lemmas.ChannelOde
import Verif.Lemmas.ChannelPlanar
import Verif.Lemmas.ChannelSymmetry
import Verif.Lemmas.ChannelSymmetryConv
import Verif.Lemmas.ChannelSymmetryRun
import Verif.Lemmas.ChannelSymmetryStep
import Verif.Lemmas.ChebHelmholtz
import Verif.Lemmas.ChebHelmholtzForm
import Verif.Lemmas.ChebPoisson
import Verif.Lemmas.ChebPoissonNeumann
import Verif.Lemmas.ChebStable
import Verif.Lemmas.ChebWeight
import Verif.Lemmas.Controller
import Verif.Lemmas.Convection
import Verif.Lemmas.Converge
import Verif.Lemmas.CoupledBq
import Verif.Lemmas.CoupledCheb
import Verif.Lemmas.CoupledError
import Verif.Lemmas.CoupledTime
import Verif.Lemmas.DemoStarts
import Verif.Lemmas.EnergyError
import Verif.Lemmas.Fourier
import Verif.Lemmas.FourierHerm
import Verif.Lemmas.FourierInv
import Verif.Lemmas.Galerkin
import Verif.Lemmas.GalerkinDecay
import Verif.Lemmas.GalerkinError
import Verif.Lemmas.GalerkinMatrices
import Verif.Lemmas.GalerkinSpace
import Verif.Lemmas.GalerkinTime
import Verif.Lemmas.GaussRule
import Verif.Lemmas.GlobalODE
import Verif.Lemmas.GridError
import Verif.Lemmas.GridError2D
import Verif.Lemmas.Growth
import Verif.Lemmas.HeatApprox
import Verif.Lemmas.HeatConv
import Verif.Lemmas.HeatError
import Verif.Lemmas.HeatMax
import Verif.Lemmas.HeatSeries
import Verif.Lemmas.Imex
import Verif.Lemmas.ImexSplit
import Verif.Lemmas.Integrators
import Verif.Lemmas.Invariant
import Verif.Lemmas.InvariantODE
import Verif.Lemmas.Invariants
import Verif.Lemmas.Jet
import Verif.Lemmas.LUsolve
import Verif.Lemmas.LegError
import Verif.Lemmas.LegPoisson
import Verif.Lemmas.Legendre
import Verif.Lemmas.Leibniz
import Verif.Lemmas.MKM
import Verif.Lemmas.Optimization
import Verif.Lemmas.Order
import Verif.Lemmas.Periodic
import Verif.Lemmas.Projection
import Verif.Lemmas.Quadratic
import Verif.Lemmas.Quadrature
import Verif.Lemmas.RBOde
import Verif.Lemmas.RBSymmetry
import Verif.Lemmas.RKLocal
import Verif.Lemmas.Retained
import Verif.Lemmas.RetainedCoupled
import Verif.Lemmas.RetainedWall
import Verif.Lemmas.ShortWaves
import Verif.Lemmas.Slab
import Verif.Lemmas.Solve
import Verif.Lemmas.SolverQuad
import Verif.Lemmas.Stale
import Verif.Lemmas.Symmetry
import Verif.Lemmas.SymmetryFFT
import Verif.Lemmas.Torus
import Verif.Lemmas.TransportError
import Verif.Lemmas.Trig
import Verif.Lemmas.TrigAlg
import Verif.Model.Accessors
import Verif.Model.Channel
import Verif.Model.ChannelConv
import Verif.Model.ChannelSolvers
import Verif.Model.ChebEvenOdd
import Verif.Model.ChebHelmholtz
import Verif.Model.ChebNeumannHelm
import Verif.Model.ChebNeumannSft
import Verif.Model.ChebNonhomo
import Verif.Model.ChebPoisson
import Verif.Model.ChebPoissonNeumann
import Verif.Model.ChebPoissonSft
import Verif.Model.ChebWall
import Verif.Model.Config
import Verif.Model.Coupled
import Verif.Model.CoupledCheb
import Verif.Model.Dealias
import Verif.Model.DealiasDirect
import Verif.Model.DealiasWall
import Verif.Model.DemoStarts
import Verif.Model.Demos
import Verif.Model.ErrorEstimate
import Verif.Model.Fourier
import Verif.Model.Galerkin
import Verif.Model.Integrators
import Verif.Model.Isotropic
import Verif.Model.KMMr
import Verif.Model.LUsolve
import Verif.Model.Laminar
import Verif.Model.LegPoisson
import Verif.Model.LegShen
import Verif.Model.MKM
import Verif.Model.NSShenfun
import Verif.Model.Optimization
import Verif.Model.OrrSommerfeld
import Verif.Model.OrrSommerfeldr
import Verif.Model.Periodic
import Verif.Model.Pressure
import Verif.Model.Profile
import Verif.Model.PyFloat
import Verif.Model.RBCheb
import Verif.Model.RBDemo
import Verif.Model.RayleighBenard
import Verif.Model.RefinementTest
import Verif.Model.Short
import Verif.Model.Solve
import Verif.Model.Utilities
import Verif.Props.Accessors
import Verif.Props.AdaptiveRun
import Verif.Props.AliasedAccuracy
import Verif.Props.AliasedAccuracy2D
import Verif.Props.BS5
import Verif.Props.Bq
import Verif.Props.ChannelConv
import Verif.Props.ChannelConvWall
import Verif.Props.ChannelConverge
import Verif.Props.ChannelPlanar
import Verif.Props.ChannelRK3
import Verif.Props.ChannelSolve
import Verif.Props.ChannelStep
import Verif.Props.ChannelSymmetry
import Verif.Props.ChebError
import Verif.Props.ChebEvenOdd
import Verif.Props.ChebHelmholtz
import Verif.Props.ChebHelmholtzAlt
import Verif.Props.ChebNeumannHelm
import Verif.Props.ChebNeumannSft
import Verif.Props.ChebNonhomo
import Verif.Props.ChebPoisson
import Verif.Props.ChebPoissonNeumann
import Verif.Props.ChebPoissonSft
import Verif.Props.Config
import Verif.Props.Convection
import Verif.Props.Converge
import Verif.Props.Coupled
import Verif.Props.CoupledCheb
import Verif.Props.Dealias
import Verif.Props.Decay
import Verif.Props.DemoStarts
import Verif.Props.DxPositive
import Verif.Props.FFT
import Verif.Props.FixedStep
import Verif.Props.Forms
import Verif.Props.Galerkin
import Verif.Props.GalerkinEq
import Verif.Props.GalerkinField
import Verif.Props.GlobalSolutions
import Verif.Props.H5
import Verif.Props.Invariants
import Verif.Props.InvariantsFFT
import Verif.Props.Isotropic
import Verif.Props.KMMr
import Verif.Props.KMMrSymmetry
import Verif.Props.Kernels
import Verif.Props.LUsolve
import Verif.Props.Laminar
import Verif.Props.LaminarCoupled
import Verif.Props.LaminarError
import Verif.Props.LaminarExact
import Verif.Props.LegError
import Verif.Props.LegPoisson
import Verif.Props.LegShen
import Verif.Props.MHD
import Verif.Props.MKM
import Verif.Props.MultDiv
import Verif.Props.NSShenfun
import Verif.Props.Optimizer
import Verif.Props.OrrSommerfeld
import Verif.Props.OrrSommerfeldr
import Verif.Props.Parsers
import Verif.Props.Planar
import Verif.Props.Pressure
import Verif.Props.Profile
import Verif.Props.Quadrature
import Verif.Props.RBConduct
import Verif.Props.RBConverge
import Verif.Props.RBDemo
import Verif.Props.RBField
import Verif.Props.RBGrowth
import Verif.Props.RBRelax
import Verif.Props.RBSymmetry
import Verif.Props.RBUpdate
import Verif.Props.Ranks
import Verif.Props.RayleighBenard
import Verif.Props.Reality
import Verif.Props.RefinementTest
import Verif.Props.RoundTrip
import Verif.Props.Short
import Verif.Props.ShortFlow
import Verif.Props.Slab
import Verif.Props.Solenoidal
import Verif.Props.Solve
import Verif.Props.SolveAccuracy
import Verif.Props.SolveChannel
import Verif.Props.SolveKMMr
import Verif.Props.SolvePeriodic
import Verif.Props.SolveRestart
import Verif.Props.SolveRestartPeriodic
import Verif.Props.SolveRuns
import Verif.Props.SolveSplit
import Verif.Props.SpectralAccuracy
import Verif.Props.SpectralAccuracyAll
import Verif.Props.SpectralAccuracyMHD
import Verif.Props.Stats
import Verif.Props.Symmetry
import Verif.Props.SymmetryFFT
import Verif.Props.TaylorGreen
import Verif.Props.TaylorGreen2D
import Verif.Props.Timer
import Verif.Props.TwoThirds
import Verif.Props.TwoThirdsCoupled
import Verif.Props.TwoThirdsWall
import Verif.Props.VV
import Verif.Props.Weak
import Verif.Props.WeakMHD
import Verif.Props.WeakNS
import Verif.Spec.Channel
import Verif.Spec.ChannelEq
import Verif.Spec.ChannelField
import Verif.Spec.ChannelMotion
import Verif.Spec.ChannelPlanar
import Verif.Spec.ChebHelmholtz
import Verif.Spec.ChebNonhomo
import Verif.Spec.ChebPoisson
import Verif.Spec.ChebPoissonNeumann
import Verif.Spec.Chebyshev
import Verif.Spec.Classical
import Verif.Spec.Convection
import Verif.Spec.Decay
import Verif.Spec.DemoStarts
import Verif.Spec.Flux
import Verif.Spec.Fourier
import Verif.Spec.Invariants
import Verif.Spec.LegPoisson
import Verif.Spec.MHD
import Verif.Spec.ODE
import Verif.Spec.OrrSommerfeld
import Verif.Spec.Pressure
import Verif.Spec.Product
import Verif.Spec.Profile
import Verif.Spec.RayleighBenard
import Verif.Spec.Reality
import Verif.Spec.Retained
import Verif.Spec.RootedTree
import Verif.Spec.RungeKutta
import Verif.Spec.ScriptFlow
import Verif.Spec.StartUp
import Verif.Spec.Symmetry
import Verif.Spec.Torus
