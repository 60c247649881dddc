import Verif.Lemmas.Averaging
import Verif.Lemmas.Calculus
import Verif.Lemmas.Continuant
import Verif.Lemmas.Corners
import Verif.Lemmas.CoverSeries
import Verif.Lemmas.Cyclic
import Verif.Lemmas.EdgeArctan
import Verif.Lemmas.EdgeCheckA
import Verif.Lemmas.EdgeCheckR30
import Verif.Lemmas.EdgeCheckR31
import Verif.Lemmas.EdgeCheckR40
import Verif.Lemmas.EdgeCheckR41
import Verif.Lemmas.EdgeCheckR42
import Verif.Lemmas.EdgeDeriv
import Verif.Lemmas.EdgeIdent
import Verif.Lemmas.EdgeStep
import Verif.Lemmas.Electrode
import Verif.Lemmas.Euler
import Verif.Lemmas.Expressions
import Verif.Lemmas.Extremes
import Verif.Lemmas.Floquet
import Verif.Lemmas.HillFloquet
import Verif.Lemmas.HillFormula
import Verif.Lemmas.HillLimit
import Verif.Lemmas.HillSeries
import Verif.Lemmas.HillTail
import Verif.Lemmas.Inverse
import Verif.Lemmas.Kronecker
import Verif.Lemmas.Layout
import Verif.Lemmas.Legendre
import Verif.Lemmas.LinearOde
import Verif.Lemmas.MaxPrinciple
import Verif.Lemmas.Mirror
import Verif.Lemmas.OrthTrace
import Verif.Lemmas.Partials
import Verif.Lemmas.PointDeriv
import Verif.Lemmas.PolyAnalytic
import Verif.Lemmas.PolyField
import Verif.Lemmas.PolyIdent
import Verif.Lemmas.PolyIntegral
import Verif.Lemmas.PolyLimit
import Verif.Lemmas.PolySmooth
import Verif.Lemmas.Problem
import Verif.Lemmas.Pseudo
import Verif.Lemmas.Rotate
import Verif.Lemmas.Rotation
import Verif.Lemmas.RoundEdge
import Verif.Lemmas.RoundLoop
import Verif.Lemmas.RoundPoint
import Verif.Lemmas.Rounding
import Verif.Lemmas.ShapeError
import Verif.Lemmas.SphDeriv
import Verif.Lemmas.SphereLaw
import Verif.Lemmas.Surface
import Verif.Lemmas.SvdExists
import Verif.Lemmas.SysSmooth
import Verif.Lemmas.System
import Verif.Lemmas.Tensor
import Verif.Model.Adaptive
import Verif.Model.Adjust
import Verif.Model.AdjustMove
import Verif.Model.Analyze
import Verif.Model.Arcball
import Verif.Model.Constraints
import Verif.Model.Contour
import Verif.Model.Dynamics
import Verif.Model.EigenC
import Verif.Model.Electrode
import Verif.Model.ExprNum
import Verif.Model.Expressions
import Verif.Model.FromMatrix
import Verif.Model.Grid
import Verif.Model.Helpers
import Verif.Model.InverseC
import Verif.Model.Ions
import Verif.Model.Kernels
import Verif.Model.Mathieu
import Verif.Model.Orient
import Verif.Model.PExpr
import Verif.Model.Plot
import Verif.Model.PolyData
import Verif.Model.Polygons
import Verif.Model.Project
import Verif.Model.Py
import Verif.Model.QuatC
import Verif.Model.Register
import Verif.Model.Rotate
import Verif.Model.Rounded
import Verif.Model.RoundedModes
import Verif.Model.RoundedSystem
import Verif.Model.SelfCheck
import Verif.Model.Smooth
import Verif.Model.SolveSets
import Verif.Model.SphDeriv
import Verif.Model.Spherical
import Verif.Model.System
import Verif.Model.Tensor
import Verif.Model.TraitCon
import Verif.Model.TraitOffset
import Verif.Model.Transform
import Verif.Model.TransformC
import Verif.Model.Vectors
import Verif.Model.VectorsC
import Verif.Model.Vtk
import Verif.Model.Xic
import Verif.Props.Access
import Verif.Props.Adaptive
import Verif.Props.Adjust
import Verif.Props.AdjustMove
import Verif.Props.AdjustRest
import Verif.Props.Affine
import Verif.Props.Analyze
import Verif.Props.Arcball
import Verif.Props.Area
import Verif.Props.AreaRegion
import Verif.Props.Averaging
import Verif.Props.Compiled
import Verif.Props.CompiledQuat
import Verif.Props.Compose
import Verif.Props.Constraints
import Verif.Props.Contour
import Verif.Props.Cover
import Verif.Props.CoverSum
import Verif.Props.Determine
import Verif.Props.Dirichlet
import Verif.Props.Distant
import Verif.Props.Earnshaw
import Verif.Props.EigenC
import Verif.Props.EigenC2
import Verif.Props.EigenC3
import Verif.Props.EigenC4
import Verif.Props.EigenC5
import Verif.Props.EigenC6
import Verif.Props.EigenC7
import Verif.Props.Electrode
import Verif.Props.Euler
import Verif.Props.EulerAngles
import Verif.Props.Expansion
import Verif.Props.Floquet
import Verif.Props.FloquetMotion
import Verif.Props.FromMatrix
import Verif.Props.FromMatrix2
import Verif.Props.Gds
import Verif.Props.Grid
import Verif.Props.GridElectrode
import Verif.Props.GridError
import Verif.Props.Group
import Verif.Props.Harmonics
import Verif.Props.Helpers
import Verif.Props.InverseC
import Verif.Props.Ions
import Verif.Props.Journey
import Verif.Props.JourneyWhole
import Verif.Props.Kernels
import Verif.Props.Knobs
import Verif.Props.Layout
import Verif.Props.Limits
import Verif.Props.MathieuHill
import Verif.Props.MathieuIvp
import Verif.Props.MathieuOrder
import Verif.Props.MathieuOrder2
import Verif.Props.MathieuSol
import Verif.Props.Mesh
import Verif.Props.Micromotion
import Verif.Props.Minimum
import Verif.Props.ModeShift
import Verif.Props.Modes
import Verif.Props.Motion
import Verif.Props.Nonconst
import Verif.Props.Optimize
import Verif.Props.Orient
import Verif.Props.Oscillation
import Verif.Props.Overlaps
import Verif.Props.Pads
import Verif.Props.PixelDeriv
import Verif.Props.Pixels
import Verif.Props.Plot
import Verif.Props.Points
import Verif.Props.PolyData
import Verif.Props.PolyFilter
import Verif.Props.PolyOps
import Verif.Props.PolySystem
import Verif.Props.Polygons
import Verif.Props.Project
import Verif.Props.Pseudo
import Verif.Props.QuatEuler
import Verif.Props.QuatFrom
import Verif.Props.Quaternion
import Verif.Props.Ramps
import Verif.Props.RampsLast
import Verif.Props.RandomRot
import Verif.Props.Register
import Verif.Props.Register2
import Verif.Props.Register3
import Verif.Props.Rfo
import Verif.Props.RingTrap
import Verif.Props.Robust
import Verif.Props.RoundedDrive
import Verif.Props.RoundedSystem
import Verif.Props.Rounding
import Verif.Props.Secular
import Verif.Props.SelfCheck
import Verif.Props.Shims
import Verif.Props.ShimsSucceed
import Verif.Props.Similar
import Verif.Props.Slerp
import Verif.Props.Smooth
import Verif.Props.Solve
import Verif.Props.SphDeriv
import Verif.Props.Spherical
import Verif.Props.Surface
import Verif.Props.System
import Verif.Props.Tensor
import Verif.Props.Tolerance
import Verif.Props.TraitCon
import Verif.Props.TraitCon2
import Verif.Props.TraitCon3
import Verif.Props.TraitOffset
import Verif.Props.TrajEnergy
import Verif.Props.Trajectory
import Verif.Props.Unique
import Verif.Props.Vectors
import Verif.Props.VectorsC
import Verif.Props.VoltChange
import Verif.Props.VoltDeriv
import Verif.Props.Vtk
import Verif.Props.WaveformModes
import Verif.Props.WaveformTrap
import Verif.Props.Waveforms
import Verif.Props.WaveformsExist
import Verif.Props.WellBall
import Verif.Props.Xic
import Verif.Spec.Averaging
import Verif.Spec.Calculus
import Verif.Spec.Determine
import Verif.Spec.Distant
import Verif.Spec.Drive
import Verif.Spec.Expansion
import Verif.Spec.FloquetMotion
import Verif.Spec.Ions
import Verif.Spec.Layout
import Verif.Spec.Limits
import Verif.Spec.Micromotion
import Verif.Spec.ModeShift
import Verif.Spec.Motion
import Verif.Spec.Oscillation
import Verif.Spec.Problem
import Verif.Spec.Region
import Verif.Spec.Report
import Verif.Spec.Robust
import Verif.Spec.RoundedSystem
import Verif.Spec.Rounding
import Verif.Spec.Secular
import Verif.Spec.Similar
import Verif.Spec.SolidHarmonic
import Verif.Spec.Surface
import Verif.Spec.System
import Verif.Spec.Tensor
import Verif.Spec.Tolerance
