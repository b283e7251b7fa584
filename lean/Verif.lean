import Verif.Basic
import Verif.Lemmas.AddKnot
import Verif.Lemmas.BSpline
import Verif.Lemmas.BSpline2
import Verif.Lemmas.Bernstein
import Verif.Lemmas.Boehm
import Verif.Lemmas.ClipWalk
import Verif.Lemmas.Conic
import Verif.Lemmas.Curve
import Verif.Lemmas.Deriv
import Verif.Lemmas.Deriv2
import Verif.Lemmas.ElevChain
import Verif.Lemmas.Elevate
import Verif.Lemmas.Insert
import Verif.Lemmas.Knot
import Verif.Lemmas.Mat
import Verif.Lemmas.Natural
import Verif.Lemmas.Net
import Verif.Lemmas.PeriodicSpline
import Verif.Lemmas.Rational
import Verif.Lemmas.Rational2
import Verif.Lemmas.Refine
import Verif.Lemmas.Refine2
import Verif.Lemmas.Res
import Verif.Lemmas.Sorted
import Verif.Lemmas.SpanPoly
import Verif.Lemmas.SurfDeriv
import Verif.Lemmas.SurfNat
import Verif.Lemmas.Surface
import Verif.Lemmas.TotalPos
import Verif.Lemmas.Unify
import Verif.Lemmas.Variation
import Verif.Lemmas.Whitney
import Verif.Model.BBox
import Verif.Model.Bfgs
import Verif.Model.BoolEntry
import Verif.Model.Boolean
import Verif.Model.Cast
import Verif.Model.Closest
import Verif.Model.Compound
import Verif.Model.Compound2
import Verif.Model.Conic
import Verif.Model.Contains
import Verif.Model.Curve
import Verif.Model.Deriv
import Verif.Model.Elevate
import Verif.Model.Frame
import Verif.Model.Interp
import Verif.Model.Intersect
import Verif.Model.Knot
import Verif.Model.Length
import Verif.Model.Loft
import Verif.Model.MeshArea
import Verif.Model.Misc
import Verif.Model.Refine
import Verif.Model.Remove
import Verif.Model.Rounded
import Verif.Model.RoundedKnots
import Verif.Model.RoundedLength
import Verif.Model.RoundedOps
import Verif.Model.RoundedRefine
import Verif.Model.RoundedTess
import Verif.Model.RoundedTree
import Verif.Model.Serde
import Verif.Model.Surface
import Verif.Model.Tess
import Verif.Model.Trimmed
import Verif.Props.AddKnot
import Verif.Props.BBox
import Verif.Props.Bezier
import Verif.Props.Bfgs
import Verif.Props.BfgsCurves
import Verif.Props.BoolArcs
import Verif.Props.BoolBoundary
import Verif.Props.BoolHits
import Verif.Props.BoolLaws
import Verif.Props.BoolLoop
import Verif.Props.BoolRegion
import Verif.Props.BoolTrim
import Verif.Props.Cast
import Verif.Props.Clamp
import Verif.Props.Clip
import Verif.Props.ClipSets
import Verif.Props.ClipWalk
import Verif.Props.Closest
import Verif.Props.ClosestLine
import Verif.Props.ClosestSteps
import Verif.Props.Completions
import Verif.Props.Compound
import Verif.Props.CompoundChain
import Verif.Props.CompoundEval
import Verif.Props.CompoundOps
import Verif.Props.CompoundTrim
import Verif.Props.Conic
import Verif.Props.Constrain
import Verif.Props.Constructors
import Verif.Props.Contains
import Verif.Props.ContainsSearch
import Verif.Props.Converge
import Verif.Props.Convex
import Verif.Props.Curve
import Verif.Props.Curve2
import Verif.Props.Curve3
import Verif.Props.Curve4
import Verif.Props.CurveDeriv
import Verif.Props.CurveLength
import Verif.Props.Cutting
import Verif.Props.Degeneracy
import Verif.Props.Deriv
import Verif.Props.Edits
import Verif.Props.ElevQuad
import Verif.Props.Elevate
import Verif.Props.Frame
import Verif.Props.Interp
import Verif.Props.InterpSymmetry
import Verif.Props.InterpUnique
import Verif.Props.Intersect
import Verif.Props.IntersectCompound
import Verif.Props.Isocurve
import Verif.Props.Knot
import Verif.Props.Length
import Verif.Props.LengthReal
import Verif.Props.Loft
import Verif.Props.LoftSymmetry
import Verif.Props.LoftWeights
import Verif.Props.MatrixAct
import Verif.Props.MeshArea
import Verif.Props.Misc
import Verif.Props.Misc2
import Verif.Props.Moved
import Verif.Props.MovedBool
import Verif.Props.MovedHits
import Verif.Props.MovedMeasure
import Verif.Props.MovedSurfHits
import Verif.Props.Periodic
import Verif.Props.PeriodicUnique
import Verif.Props.PieceLaws
import Verif.Props.Pieces
import Verif.Props.Polygon
import Verif.Props.PolygonCurve
import Verif.Props.PolygonHull
import Verif.Props.PolygonWinding
import Verif.Props.Refine
import Verif.Props.RegionMap
import Verif.Props.Regular
import Verif.Props.Remove
import Verif.Props.RemoveClaims
import Verif.Props.RemoveDouble
import Verif.Props.RemoveSimple
import Verif.Props.Reversed
import Verif.Props.ReversedSurface
import Verif.Props.Revolve
import Verif.Props.Rounded
import Verif.Props.RoundedBox
import Verif.Props.RoundedKnots
import Verif.Props.RoundedLength
import Verif.Props.RoundedRefine
import Verif.Props.RoundedTess
import Verif.Props.RoundedTree
import Verif.Props.Serde
import Verif.Props.SerdeRegion
import Verif.Props.Smooth
import Verif.Props.SurfMoved
import Verif.Props.SurfPieces
import Verif.Props.SurfTolerance
import Verif.Props.SurfUnique
import Verif.Props.Surface
import Verif.Props.Surface2
import Verif.Props.Surface3
import Verif.Props.SurfaceDeriv
import Verif.Props.SurfaceSmooth
import Verif.Props.Sweep
import Verif.Props.TessArea
import Verif.Props.TessClaims
import Verif.Props.TessConstrained
import Verif.Props.TessCover
import Verif.Props.TessDeviation
import Verif.Props.TessEdges
import Verif.Props.TessGrid
import Verif.Props.TessMesh
import Verif.Props.TessNormals
import Verif.Props.TessParams
import Verif.Props.TessSurface
import Verif.Props.TessTree
import Verif.Props.Tessellate
import Verif.Props.Traverse
import Verif.Props.TraverseParams
import Verif.Props.TrimBuild
import Verif.Props.TrimFaces
import Verif.Props.TrimSample
import Verif.Props.Unclamped
import Verif.Props.Unify
import Verif.Props.Unique
import Verif.Props.Variation
import Verif.Spec.BSpline
import Verif.Spec.Curve
import Verif.Spec.Surface
import Verif.Spec.Tiling
