import Verif.Lemmas.Angles
import Verif.Lemmas.ArrayCalc2
import Verif.Lemmas.ArrayCalc4
import Verif.Lemmas.ArrayExact
import Verif.Lemmas.ArrayExact2
import Verif.Lemmas.ArrayExact4
import Verif.Lemmas.ArrayMaterial
import Verif.Lemmas.ArrayResult
import Verif.Lemmas.ArrayResultExact
import Verif.Lemmas.ArrayRows
import Verif.Lemmas.ArraySolver4
import Verif.Lemmas.Balance
import Verif.Lemmas.Berreman
import Verif.Lemmas.CausalKk
import Verif.Lemmas.Continuity
import Verif.Lemmas.Dirichlet
import Verif.Lemmas.DispSum
import Verif.Lemmas.DispValue
import Verif.Lemmas.Ema
import Verif.Lemmas.Energy
import Verif.Lemmas.ExitFlux
import Verif.Lemmas.ExitForward
import Verif.Lemmas.ExpPerturb
import Verif.Lemmas.FitWindow
import Verif.Lemmas.GammaRatio
import Verif.Lemmas.GaussKk
import Verif.Lemmas.Graded
import Verif.Lemmas.GradedScatter
import Verif.Lemmas.Grammar
import Verif.Lemmas.HalfSpace
import Verif.Lemmas.Herglotz
import Verif.Lemmas.Linear
import Verif.Lemmas.LinearRate
import Verif.Lemmas.Machine
import Verif.Lemmas.MatExp
import Verif.Lemmas.Maxwell
import Verif.Lemmas.Mueller
import Verif.Lemmas.NdArray
import Verif.Lemmas.NdLinear
import Verif.Lemmas.NdSort
import Verif.Lemmas.Ode
import Verif.Lemmas.Periodic
import Verif.Lemmas.Polarisation
import Verif.Lemmas.Pv
import Verif.Lemmas.PvHalf
import Verif.Lemmas.Rotation
import Verif.Lemmas.Rounding
import Verif.Lemmas.Scatter
import Verif.Lemmas.SliceRate
import Verif.Lemmas.Sqrt
import Verif.Lemmas.Structure
import Verif.Lemmas.Symmetry
import Verif.Lemmas.Tanguy
import Verif.Lemmas.TanguyLimit
import Verif.Lemmas.TaucKk
import Verif.Lemmas.TaucOver
import Verif.Lemmas.Transfer
import Verif.Lemmas.Trotter
import Verif.Lemmas.Uniaxial
import Verif.Model.Angles
import Verif.Model.ArrayExact
import Verif.Model.ArrayResult
import Verif.Model.ArraySolver
import Verif.Model.Base
import Verif.Model.Catalog
import Verif.Model.CatalogFile
import Verif.Model.Choices
import Verif.Model.Cody
import Verif.Model.CodyDouble
import Verif.Model.DataFrames
import Verif.Model.DispArray
import Verif.Model.DispSum
import Verif.Model.Dispersion
import Verif.Model.ExpState
import Verif.Model.Experiment
import Verif.Model.Factory
import Verif.Model.Fit
import Verif.Model.FitWindow
import Verif.Model.Formula
import Verif.Model.Grammar
import Verif.Model.Heap
import Verif.Model.Hist
import Verif.Model.Importer
import Verif.Model.IndexTensor
import Verif.Model.IntLambda
import Verif.Model.Kkr
import Verif.Model.Lexer
import Verif.Model.Lookup
import Verif.Model.Materials
import Verif.Model.MeasFile
import Verif.Model.MmPlot
import Verif.Model.MuellerFile
import Verif.Model.NdArray
import Verif.Model.Nexus
import Verif.Model.Overflow
import Verif.Model.Params
import Verif.Model.Plot
import Verif.Model.Print
import Verif.Model.Pseudo
import Verif.Model.Regex
import Verif.Model.Result
import Verif.Model.ResultLists
import Verif.Model.Rii
import Verif.Model.Rotation
import Verif.Model.RoundedResult
import Verif.Model.RoundedSolver
import Verif.Model.RoundedSolver4
import Verif.Model.Rounding
import Verif.Model.Solver
import Verif.Model.SpectraRayTable
import Verif.Model.Structure
import Verif.Model.Table
import Verif.Model.Tanguy
import Verif.Model.Units
import Verif.Model.Utils
import Verif.Model.VaryBoxes
import Verif.Props.AbsorptionEdge
import Verif.Props.Airy
import Verif.Props.AngleErrors
import Verif.Props.AngleReflect
import Verif.Props.Angles
import Verif.Props.AxisAngle
import Verif.Props.BothSides
import Verif.Props.Bragg
import Verif.Props.BulkAbsolute
import Verif.Props.BulkAngles
import Verif.Props.BulkIndex
import Verif.Props.Catalog
import Verif.Props.CatalogFile
import Verif.Props.Choices
import Verif.Props.Circular
import Verif.Props.Coating
import Verif.Props.CoatingSolver2
import Verif.Props.Cody
import Verif.Props.CodyDouble
import Verif.Props.CodyRange
import Verif.Props.Continuity
import Verif.Props.CrystalExit
import Verif.Props.CrystalFresnel
import Verif.Props.DataErrors
import Verif.Props.DataFrames
import Verif.Props.Defined2x2
import Verif.Props.DispArray
import Verif.Props.DispLimits
import Verif.Props.DispLink
import Verif.Props.DispSum
import Verif.Props.DispValues
import Verif.Props.Dispersion
import Verif.Props.DispersionDoc
import Verif.Props.EigCrystals
import Verif.Props.EigLayers
import Verif.Props.EigVoigt
import Verif.Props.Energy
import Verif.Props.Equivalent
import Verif.Props.ExitBasis
import Verif.Props.ExpState
import Verif.Props.Factory
import Verif.Props.FilmThickness
import Verif.Props.Fit
import Verif.Props.FitBoxes
import Verif.Props.FitWindow
import Verif.Props.Formula
import Verif.Props.Frames
import Verif.Props.Grammar
import Verif.Props.Gui
import Verif.Props.GuiReset
import Verif.Props.Handedness
import Verif.Props.Heights
import Verif.Props.Helix
import Verif.Props.Hist
import Verif.Props.HistRecent
import Verif.Props.Homogenise
import Verif.Props.Identify
import Verif.Props.Importer
import Verif.Props.IndexTensor
import Verif.Props.IntLambda
import Verif.Props.Kkr
import Verif.Props.KkrAnalytic
import Verif.Props.KkrCausal
import Verif.Props.KkrDispersion
import Verif.Props.KkrLimit
import Verif.Props.KkrRate
import Verif.Props.KkrTanguy
import Verif.Props.KkrTauc
import Verif.Props.Lexer
import Verif.Props.LinearEnergy
import Verif.Props.Lookup
import Verif.Props.Materials
import Verif.Props.Maxwell
import Verif.Props.MeasFile
import Verif.Props.Mixture
import Verif.Props.MixtureBounds
import Verif.Props.MixtureExit
import Verif.Props.MixtureFraction
import Verif.Props.MixtureMeasured
import Verif.Props.MixtureSector
import Verif.Props.MmPlot
import Verif.Props.Mueller
import Verif.Props.MuellerFile
import Verif.Props.MuellerInverse
import Verif.Props.MuellerPhysical
import Verif.Props.MuellerSymmetry
import Verif.Props.Nexus
import Verif.Props.NormalDispersion
import Verif.Props.Orientation
import Verif.Props.Overflow
import Verif.Props.Overflow4
import Verif.Props.Params
import Verif.Props.Passivity
import Verif.Props.PlaneStack
import Verif.Props.Plate
import Verif.Props.Plot
import Verif.Props.Polarisation
import Verif.Props.Polariser
import Verif.Props.Print
import Verif.Props.Pseudo
import Verif.Props.QuarterWavePower
import Verif.Props.QuarterWaves
import Verif.Props.ReflectedLight
import Verif.Props.ResultArrays
import Verif.Props.ResultLists
import Verif.Props.Reversal
import Verif.Props.Rii
import Verif.Props.RiiSum
import Verif.Props.Rotation
import Verif.Props.RoundedAngles
import Verif.Props.RoundedResult
import Verif.Props.RoundedSlices
import Verif.Props.RoundedSolver
import Verif.Props.RoundedSolver4
import Verif.Props.RoundedSolver4Double
import Verif.Props.RoundedSolverDouble
import Verif.Props.RoundedUnits
import Verif.Props.Rounding
import Verif.Props.SliceError
import Verif.Props.Slicing
import Verif.Props.Snapshot
import Verif.Props.SolverLaws
import Verif.Props.Spectra
import Verif.Props.SpectraExact
import Verif.Props.SpectraRayTable
import Verif.Props.StaticLimits
import Verif.Props.StaticTanguy
import Verif.Props.Structure
import Verif.Props.SumRules
import Verif.Props.Symmetry
import Verif.Props.Table
import Verif.Props.Tanguy
import Verif.Props.TanguyLimit
import Verif.Props.TaucNoGap
import Verif.Props.ThickLayer
import Verif.Props.ThinFilm
import Verif.Props.Tunnelling
import Verif.Props.UltraThin
import Verif.Props.Units
import Verif.Props.Unpolarised
import Verif.Props.VaryBoxes
import Verif.Spec.Angles
import Verif.Spec.Bloch
import Verif.Spec.BothSides
import Verif.Spec.Catalog
import Verif.Spec.Causal
import Verif.Spec.Coating
import Verif.Spec.Conditioning
import Verif.Spec.DispLimits
import Verif.Spec.DispSum
import Verif.Spec.Dispersion
import Verif.Spec.DispersionDoc
import Verif.Spec.Equivalent
import Verif.Spec.Film
import Verif.Spec.Fit
import Verif.Spec.FitWindow
import Verif.Spec.Formula
import Verif.Spec.FormulaText
import Verif.Spec.Graded
import Verif.Spec.Helix
import Verif.Spec.Hist
import Verif.Spec.Identify
import Verif.Spec.Importer
import Verif.Spec.Kkr
import Verif.Spec.Lookup
import Verif.Spec.Maxwell
import Verif.Spec.MeasFile
import Verif.Spec.Mixture
import Verif.Spec.MixtureBounds
import Verif.Spec.MixtureFraction
import Verif.Spec.MuellerSigns
import Verif.Spec.Nexus
import Verif.Spec.NormalDispersion
import Verif.Spec.Optics
import Verif.Spec.Params
import Verif.Spec.Plot
import Verif.Spec.Polarisation
import Verif.Spec.PrincipalValue
import Verif.Spec.QuarterWaves
import Verif.Spec.Rii
import Verif.Spec.Rotation
import Verif.Spec.Spectra
import Verif.Spec.Symmetry
import Verif.Spec.Table
import Verif.Spec.Tunnelling
import Verif.Spec.Units
import Verif.Spec.Unpolarised
import Verif.Spec.VaryBoxes
