import Verif.Props.Forecast
import Verif.Props.Ensemble
import Verif.Props.Tl
import Verif.Props.Schemes
import Verif.Props.Order
import Verif.Props.Text
import Verif.Props.Render
import Verif.Props.FDModel
import Verif.Props.FiniteDiff
import Verif.Props.FiniteDiffOrder
import Verif.Props.GridDeriv
import Verif.Props.FDExpr
import Verif.Props.Regularize
import Verif.Props.PartialOrder
import Verif.Props.Random
import Verif.Props.Tree
import Verif.Props.Field
import Verif.Props.Util
import Verif.Props.PDESystem
import Verif.Props.Builder
import Verif.Props.Trend
import Verif.Props.Closure
import Verif.Props.Correlation
import Verif.Lemmas.Lossless
import Verif.Lemmas.PolyAll
import Verif.Props.Pkf
import Verif.Props.PkfSystems
import Verif.Props.PkfObject
import Verif.Props.Evolution
import Verif.Props.Std
import Verif.Props.Consistency
import Verif.Props.Burgers
import Verif.Props.Dynamics
import Verif.Props.FDSystem
import Verif.Props.Manifold
import Verif.Props.Conformance
import Verif.Props.Family
import Verif.Props.Unclosed
import Verif.Props.Generate
import Verif.Spec.Observe
import Verif.Lemmas.Observe
import Verif.Props.Observe
import Verif.Spec.Convergence
import Verif.Lemmas.Convergence
import Verif.Lemmas.OneStep
import Verif.Props.Convergence
import Verif.Spec.FullyDiscrete
import Verif.Lemmas.ConsistencyTime
import Verif.Lemmas.CentredDiff
import Verif.Props.FullyDiscrete
import Verif.Props.BurgersConvergence
import Verif.Spec.Relation
import Verif.Props.Relation
import Verif.Spec.Translate
import Verif.Props.Translate
import Verif.Spec.Conservation
import Verif.Props.Conservation
import Verif.Props.MaximumPrinciple
import Verif.Model.RegularizeSystem
import Verif.Props.RegularizeSystem
import Verif.Spec.SemiDiscrete
import Verif.Props.SemiDiscrete
import Verif.Props.SemiDiscreteCases
import Verif.Spec.Reflect
import Verif.Props.Reflect
import Verif.Props.ReflectCases
import Verif.Spec.OrderBound
import Verif.Lemmas.Graded
import Verif.Lemmas.TreeOrder
import Verif.Lemmas.MaxOrder
import Verif.Lemmas.GradedSystem
import Verif.Props.OrderBound
import Verif.Lemmas.TotalOrder
import Verif.Props.TotalOrder
import Verif.Spec.Energy
import Verif.Props.Energy
import Verif.Spec.SkewSystem
import Verif.Props.SkewSystem
import Verif.Props.EnergyCases
import Verif.Spec.Film
import Verif.Props.PkfForecast
import Verif.Props.Logistic
import Verif.Spec.EnergyConvergence
import Verif.Props.EnergyConvergence
import Verif.Lemmas.TimeDerivatives
import Verif.Props.EnergyForecast
import Verif.Props.EnergyTransport
import Verif.Props.EnergyShallow
import Verif.Props.Staggered
import Verif.Model.Stagger
import Verif.Lemmas.Stagger
import Verif.Props.StaggerLoop
import Verif.Spec.Truth
import Verif.Lemmas.Truth
import Verif.Props.Truth
import Verif.Props.TruthCase
import Verif.Lemmas.GaussKernel
import Verif.Spec.Decouple
import Verif.Lemmas.FreeOf
import Verif.Lemmas.Idem
import Verif.Lemmas.AffineForm
import Verif.Lemmas.Cancel
import Verif.Lemmas.DecoupleSystem
import Verif.Props.Decouple
import Verif.Props.Unknowns
import Verif.Model.WriteModule
import Verif.Spec.WriteModule
import Verif.Props.WriteModule
import Verif.Props.Linear
import Verif.Props.Cases
import Verif.Props.Members
import Verif.Props.MembersCases
import Verif.Props.MembersForecast
import Verif.Props.MembersTransport
import Verif.Props.MembersTransportCases
import Verif.Props.CodeObject
import Verif.Lemmas.TrendValue
import Verif.Props.Residual
import Verif.Model.Rounding
import Verif.Spec.Rounding
import Verif.Lemmas.Rounding
import Verif.Props.Rounding
import Verif.Props.MaxOrder
import Verif.Props.FDDecided
import Verif.Props.RoundingTwo
import Verif.Props.RoundingSplit
