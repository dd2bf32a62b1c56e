import Verif.Lemmas.Axisymmetric
import Verif.Lemmas.Corresponding
import Verif.Lemmas.Current
import Verif.Lemmas.Field
import Verif.Lemmas.Flatten
import Verif.Lemmas.ForcePeriod
import Verif.Lemmas.Graham
import Verif.Lemmas.Growth
import Verif.Lemmas.ImplicitMinimiser
import Verif.Lemmas.LeastSquares
import Verif.Lemmas.Lifted
import Verif.Lemmas.Linking
import Verif.Lemmas.LinkingCircle
import Verif.Lemmas.ListedParse
import Verif.Lemmas.Lse
import Verif.Lemmas.LseConvex
import Verif.Lemmas.MirrorForms
import Verif.Lemmas.MirrorImage
import Verif.Lemmas.NumReal
import Verif.Lemmas.Origin
import Verif.Lemmas.OriginForce
import Verif.Lemmas.OriginModes
import Verif.Lemmas.Outer
import Verif.Lemmas.PeriodModes
import Verif.Lemmas.PeriodSurface
import Verif.Lemmas.QuadLimit
import Verif.Lemmas.Rearranged
import Verif.Lemmas.ReversedForms
import Verif.Lemmas.Riemann
import Verif.Lemmas.SameForms
import Verif.Lemmas.ScaledForms
import Verif.Lemmas.ScaledParse
import Verif.Lemmas.Scaling
import Verif.Lemmas.ScalingFields
import Verif.Lemmas.Shape
import Verif.Lemmas.SignFlip
import Verif.Lemmas.Slater
import Verif.Lemmas.Smooth
import Verif.Lemmas.SmoothC1
import Verif.Lemmas.SmoothConvex
import Verif.Lemmas.SmoothProblem
import Verif.Lemmas.SmoothingRate
import Verif.Lemmas.Solver
import Verif.Lemmas.StaticShape
import Verif.Lemmas.StrictQuadratic
import Verif.Lemmas.StrongConvex
import Verif.Lemmas.Surface
import Verif.Lemmas.TiledProblem
import Verif.Lemmas.Tiles
import Verif.Lemmas.TrigZeros
import Verif.Lemmas.Turned
import Verif.Lemmas.UpToConstant
import Verif.Lemmas.V3
import Verif.Lemmas.While
import Verif.Lemmas.Wrapper
import Verif.Lemmas.YInputs
import Verif.Model.Api
import Verif.Model.AutoDiff
import Verif.Model.Call
import Verif.Model.CallGradient
import Verif.Model.Coils
import Verif.Model.CoilsFile
import Verif.Model.Current
import Verif.Model.Dipole
import Verif.Model.Docs
import Verif.Model.Field
import Verif.Model.Force
import Verif.Model.ForceLegacy
import Verif.Model.Generate
import Verif.Model.Hull
import Verif.Model.ImplicitDiff
import Verif.Model.Io
import Verif.Model.Lse
import Verif.Model.Modes
import Verif.Model.Num
import Verif.Model.Params
import Verif.Model.Plot
import Verif.Model.Precond
import Verif.Model.Problem
import Verif.Model.Quadcoil
import Verif.Model.Quantity
import Verif.Model.Shipped
import Verif.Model.Solver
import Verif.Model.Surface
import Verif.Model.V3
import Verif.Model.Verbose
import Verif.Model.While
import Verif.Model.Winding
import Verif.Model.Wrapper
import Verif.Props.Ampere
import Verif.Props.AmpereTorus
import Verif.Props.Api
import Verif.Props.Approx
import Verif.Props.ApproxFlat
import Verif.Props.ApproxLimit
import Verif.Props.ApproxPrices
import Verif.Props.ApproxRate
import Verif.Props.ApproxRateExamples
import Verif.Props.ApproxReturned
import Verif.Props.AutoDiff
import Verif.Props.AutoDiffFields
import Verif.Props.Axisymmetric
import Verif.Props.AxisymmetricArc
import Verif.Props.AxisymmetricCall
import Verif.Props.AxisymmetricModes
import Verif.Props.AxisymmetricNeeded
import Verif.Props.AxisymmetricOffset
import Verif.Props.AxisymmetricSolution
import Verif.Props.AxisymmetricUser
import Verif.Props.BiotSavart
import Verif.Props.Call
import Verif.Props.CallDefault
import Verif.Props.CallExamples
import Verif.Props.CallGradient
import Verif.Props.CallGradientExamples
import Verif.Props.CallOutput
import Verif.Props.CallPrices
import Verif.Props.CallReturned
import Verif.Props.CallTolerances
import Verif.Props.CallUnits
import Verif.Props.Certificate
import Verif.Props.CoilFit
import Verif.Props.Coils
import Verif.Props.ConstrainedGrad
import Verif.Props.Constraints
import Verif.Props.ContourCopies
import Verif.Props.ConvexQuantities
import Verif.Props.ConvexRest
import Verif.Props.Coupling
import Verif.Props.Current
import Verif.Props.Cylindrical
import Verif.Props.Dipole
import Verif.Props.Docs
import Verif.Props.Exact
import Verif.Props.Export
import Verif.Props.Field
import Verif.Props.FitModes
import Verif.Props.FlatProblem
import Verif.Props.Force
import Verif.Props.ForceConvex
import Verif.Props.ForceField
import Verif.Props.ForceLegacy
import Verif.Props.ForceProblem
import Verif.Props.ForceWitness
import Verif.Props.GapBound
import Verif.Props.GenerateSmooth
import Verif.Props.GenerateSmoothExamples
import Verif.Props.GenerateUnits
import Verif.Props.GridValues
import Verif.Props.HuberKink
import Verif.Props.Hull
import Verif.Props.ImplicitDiff
import Verif.Props.Inactive
import Verif.Props.InactiveExamples
import Verif.Props.InnerProblem
import Verif.Props.InnerProblemCalls
import Verif.Props.InnerProblemExamples
import Verif.Props.Io
import Verif.Props.Join
import Verif.Props.KeptVertices
import Verif.Props.Lifted
import Verif.Props.LiftedGenerator
import Verif.Props.LiftedWitness
import Verif.Props.Limit
import Verif.Props.Limits
import Verif.Props.ListOrder
import Verif.Props.Lse
import Verif.Props.MaskGrad
import Verif.Props.Masks
import Verif.Props.Mirror
import Verif.Props.MirrorCall
import Verif.Props.MirrorGenerator
import Verif.Props.MirrorImage
import Verif.Props.Modes
import Verif.Props.Multipliers
import Verif.Props.Nested
import Verif.Props.NetCurrentBound
import Verif.Props.NetFlux
import Verif.Props.NoneUnits
import Verif.Props.NormInequalities
import Verif.Props.ObjectiveRatio
import Verif.Props.OffsetLimit
import Verif.Props.OffsetNormal
import Verif.Props.Order
import Verif.Props.Origin
import Verif.Props.OriginExamples
import Verif.Props.OuterRate
import Verif.Props.Params
import Verif.Props.ParamsInit
import Verif.Props.Parsing
import Verif.Props.PeriodForce
import Verif.Props.Periods
import Verif.Props.PhiUnit
import Verif.Props.Plot
import Verif.Props.Polygon
import Verif.Props.Precond
import Verif.Props.PrecondCoord
import Verif.Props.Prices
import Verif.Props.PricesExamples
import Verif.Props.Reporting
import Verif.Props.ResolutionNeeded
import Verif.Props.RestCall
import Verif.Props.RestStart
import Verif.Props.ReturnedPotential
import Verif.Props.ReturnedPotentialExamples
import Verif.Props.Reversal
import Verif.Props.ReversedCall
import Verif.Props.SameQuestion
import Verif.Props.Sensitivity
import Verif.Props.SetupErrors
import Verif.Props.Shipped
import Verif.Props.ShippedSlack
import Verif.Props.Slack
import Verif.Props.SlackL1
import Verif.Props.SmallChanges
import Verif.Props.SmallChangesExamples
import Verif.Props.SmoothFlat
import Verif.Props.SmoothFlatExamples
import Verif.Props.SolverFinal
import Verif.Props.SolverInner
import Verif.Props.SolverNan
import Verif.Props.SolverOuter
import Verif.Props.SolverTrace
import Verif.Props.Stability
import Verif.Props.StrictMultipliers
import Verif.Props.Superposition
import Verif.Props.Surface
import Verif.Props.SurfaceUnique
import Verif.Props.SymmetricUser
import Verif.Props.Tokamak
import Verif.Props.TokamakField
import Verif.Props.Tradeoff
import Verif.Props.Unique
import Verif.Props.UnitSign
import Verif.Props.UnitWitness
import Verif.Props.Units
import Verif.Props.UpToConstant
import Verif.Props.UpToConstantCall
import Verif.Props.VacuumField
import Verif.Props.VectorL1
import Verif.Props.Verbose
import Verif.Props.WeightLimit
import Verif.Props.WeightLimitExamples
import Verif.Props.WellPosed
import Verif.Props.WholeProblem
import Verif.Props.WindingSurface
import Verif.Spec.Axisymmetric
import Verif.Spec.CallRescale
import Verif.Spec.Constraint
import Verif.Spec.Convex
import Verif.Spec.Curl
import Verif.Spec.Deriv
import Verif.Spec.Divergence
import Verif.Spec.Fourier
import Verif.Spec.Kkt
import Verif.Spec.Lifted
import Verif.Spec.Linking
import Verif.Spec.Listing
import Verif.Spec.MirrorImage
import Verif.Spec.Nan
import Verif.Spec.Origin
import Verif.Spec.Periods
import Verif.Spec.Rescale
import Verif.Spec.Reversal
import Verif.Spec.ReversedCall
import Verif.Spec.Rotation
import Verif.Spec.Saddle
import Verif.Spec.SheetCurrent
import Verif.Spec.SignFree
import Verif.Spec.SurfaceGradient
import Verif.Spec.TorusIntegral
import Verif.Spec.Toy
import Verif.Spec.ToyQp
import Verif.Spec.TrigPoly
import Verif.Spec.UserProblem
import Verif.Spec.Values
