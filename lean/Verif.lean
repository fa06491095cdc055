import Verif.Props.Index
import Verif.Props.Product
import Verif.Props.Blur
import Verif.Props.Voronoi
import Verif.Props.Freq
import Verif.Props.Dft
import Verif.Props.Affine
import Verif.Props.Text
import Verif.Props.Prefix
import Verif.Props.Registry
import Verif.Props.Euler
import Verif.Props.Reality
import Verif.Props.RungeKutta
import Verif.Props.Solver
import Verif.Props.Sdd
import Verif.Props.Database
import Verif.Props.FileIO
import Verif.Props.Terms
import Verif.Props.Elasticity
import Verif.Props.Equilibrium
import Verif.Props.Miller
import Verif.Props.Lattice
import Verif.Props.ModeSolver
import Verif.Props.PairCorr
import Verif.Props.Cmd
import Verif.Model.Attr
import Verif.Props.Attr
import Verif.Props.CmdExport
import Verif.Model.Regex
import Verif.Model.Parser
import Verif.Spec.Equation
import Verif.Proofs.Regex
import Verif.Proofs.ParserBase
import Verif.Proofs.ParserItems
import Verif.Proofs.Bilinear
import Verif.Props.Bilinear
import Verif.Props.Derivative
import Verif.Props.Transport
import Verif.Spec.Monomial
import Verif.Proofs.Concrete
import Verif.Proofs.ConcreteTerm
import Verif.Props.Concrete
import Verif.Proofs.Equation
import Verif.Proofs.EquationBuild
import Verif.Props.Equation
import Verif.Props.FunctionTimes
import Verif.Model.Assemble
import Verif.Props.Assemble
import Verif.Model.ImplicitEuler
import Verif.Proofs.ImplicitEuler
import Verif.Spec.Duhamel
import Verif.Props.ImplicitEuler
import Verif.Model.Filter
import Verif.Props.Filter
import Verif.Props.ModalFilter
import Verif.Model.Volume
import Verif.Props.Volume
import Verif.Model.Register
import Verif.Props.Register
import Verif.Model.LinElast
import Verif.Model.StrainEnergy
import Verif.Model.Overview
import Verif.Spec.Elastic
import Verif.Proofs.LinElast
import Verif.Proofs.ElasticMin
import Verif.Props.SquaredGradient
import Verif.Props.LinElast
import Verif.Props.StrainEnergy
import Verif.Props.Overview
import Verif.Model.Crystal
import Verif.Props.Rotate
import Verif.Props.Crystal
import Verif.Proofs.Converge
import Verif.Proofs.ConvergeRk
import Verif.Proofs.ConvergeRk4
import Verif.Proofs.ConvergeExists
import Verif.Props.Converge
import Verif.Props.ConvergeRk
import Verif.Props.ConvergeExists
import Verif.Props.ConvergeText
import Verif.Model.Session
import Verif.Props.Session
import Verif.Spec.Symmetry
import Verif.Proofs.Symmetry
import Verif.Props.Symmetry
import Verif.Props.Uniform
import Verif.Props.Conserved
import Verif.Props.RealSession
import Verif.Props.Plot
import Verif.Model.Prepare
import Verif.Props.Prepare
import Verif.Props.Restart
import Verif.Props.RestartFiles
import Verif.Props.SddLinear
import Verif.Model.SddMonitor
import Verif.Props.SddMonitor
import Verif.Props.Growth
import Verif.Props.Stability
import Verif.Props.Instability
import Verif.Props.WhiteNoise
import Verif.Spec.Mixed
import Verif.Props.Mixed
import Verif.Model.Currents
import Verif.Props.Currents
import Verif.Model.Markup
import Verif.Spec.Markup
import Verif.Props.Markup
import Verif.Props.Energy
import Verif.Props.Coupled
import Verif.Props.ConvergeImplicit
import Verif.Proofs.Well
import Verif.Props.ImplicitStability
import Verif.Proofs.ConvergeRounded
import Verif.Props.Rounded
import Verif.Model.Kks
import Verif.Props.Kks
import Verif.Model.SolverStability
import Verif.Model.Nucleation
import Verif.Proofs.Cubic
import Verif.Props.SolverStability
import Verif.Props.SddLimit
import Verif.Props.Nucleation
import Verif.Props.NucleationRest
import Verif.Props.RungeKuttaStability
import Verif.Props.ImplicitWaves
import Verif.Props.ImplicitFactor
import Verif.Proofs.LinearStability
import Verif.Props.CoupledStability
import Verif.Props.PredatorPrey
import Verif.Model.PfcPhases
import Verif.Props.PfcPhases
import Verif.Model.ElectricConductivity
import Verif.Props.Conduction
import Verif.Props.Grains
import Verif.Model.DiffusionExample
import Verif.Props.Diffusion
import Verif.Props.CircleMonitor
import Verif.Model.Kpz
import Verif.Props.Kpz
import Verif.Props.KpzRun
import Verif.Props.KpzBlowup
import Verif.Model.Precipitate
import Verif.Props.MixedCoupled
import Verif.Props.Precipitate
import Verif.Props.CubicElast
import Verif.Props.PrecipitateRun
import Verif.Model.CahnHilliardExample
import Verif.Model.DrawingExample
import Verif.Model.BuildCrystals
import Verif.Props.CahnHilliard
import Verif.Props.Drawing
import Verif.Props.BuildCrystals
import Verif.Model.Penalty
import Verif.Model.GridIO
import Verif.Props.Penalty
import Verif.Props.GridIO
import Verif.Props.Interface
import Verif.Props.ImplicitTotal
import Verif.Props.ElasticReal
import Verif.Props.ElasticEven
import Verif.Props.QuietLines
import Verif.Props.LayoutExact
import Verif.Model.NonFinite
import Verif.Props.NonFinite
import Verif.Model.Memory
import Verif.Props.Memory
import Verif.Props.DerivedOrder
import Verif.Model.ImplicitSolver
import Verif.Props.ImplicitSolver
import Verif.Props.CoupledPair
import Verif.Props.ImplicitFilter
import Verif.Props.Turing
import Verif.Proofs.SmallSteps
import Verif.Props.GrowthRates
import Verif.Props.RingOscillator
import Verif.Proofs.NearIdentity
import Verif.Props.RungeKuttaSystem
import Verif.Proofs.RouthHurwitz
import Verif.Props.ThreeFields
import Verif.Props.Lorenz
import Verif.Props.TuringRungeKutta
import Verif.Proofs.Dominance
import Verif.Props.Dominance
import Verif.Props.InfoTable
import Verif.Props.LeftBehind
import Verif.Props.CurrentsOthers
import Verif.Props.IndexAll
import Verif.Props.AdvectionNames
import Verif.Props.NoTerms
