import Verif.Model.Angle
import Verif.Model.Basic
import Verif.Model.Boolean
import Verif.Model.BoundingBox
import Verif.Model.Carve
import Verif.Model.Circle
import Verif.Model.Cli
import Verif.Model.Drawing
import Verif.Model.Edge
import Verif.Model.EdgeMaps
import Verif.Model.EdgeOps
import Verif.Model.Elimination
import Verif.Model.Histories
import Verif.Model.Json
import Verif.Model.Mesh
import Verif.Model.Polyline
import Verif.Model.Predicates
import Verif.Model.Refine
import Verif.Model.Rounded
import Verif.Model.RoundedArea
import Verif.Model.RoundedContinence
import Verif.Model.RoundedInsert
import Verif.Model.RoundedMesh
import Verif.Model.RoundedQuality
import Verif.Model.RoundedRefine
import Verif.Model.RoundedSplit
import Verif.Model.Triangulator
import Verif.Model.Vertex
import Verif.Model.Vertices
import Verif.Spec.Bisection
import Verif.Spec.Carve
import Verif.Spec.Convex
import Verif.Spec.Counting
import Verif.Spec.Delaunay
import Verif.Spec.Domain
import Verif.Spec.Geometry
import Verif.Spec.Insertion
import Verif.Spec.Json
import Verif.Spec.Mesh
import Verif.Spec.Outcome
import Verif.Spec.Paths
import Verif.Spec.Pieces
import Verif.Spec.Provenance
import Verif.Spec.Refinement
import Verif.Spec.Regions
import Verif.Spec.Root
import Verif.Spec.Rounding
import Verif.Spec.Shoelace
import Verif.Spec.Uniqueness
import Verif.Spec.Units
import Verif.Spec.Winding
import Verif.Lemmas.Agree
import Verif.Lemmas.AgreeRefine
import Verif.Lemmas.AreaSign
import Verif.Lemmas.Arrangement
import Verif.Lemmas.Bisection
import Verif.Lemmas.Boolean
import Verif.Lemmas.BoundaryStep
import Verif.Lemmas.Boxes
import Verif.Lemmas.Budget
import Verif.Lemmas.CancelCycle
import Verif.Lemmas.Carve
import Verif.Lemmas.Cavity
import Verif.Lemmas.CavityEnd
import Verif.Lemmas.Confine
import Verif.Lemmas.Conflicts
import Verif.Lemmas.Constraints
import Verif.Lemmas.Continence
import Verif.Lemmas.ContinenceGeo
import Verif.Lemmas.ContinenceRim
import Verif.Lemmas.ConvexFit
import Verif.Lemmas.ConvexInsert
import Verif.Lemmas.ConvexPolygon
import Verif.Lemmas.Count
import Verif.Lemmas.Crossing
import Verif.Lemmas.DelaunayAlg
import Verif.Lemmas.DelaunayCavity
import Verif.Lemmas.DelaunayHull
import Verif.Lemmas.DelaunayRun
import Verif.Lemmas.DelaunayStep
import Verif.Lemmas.Diagonal
import Verif.Lemmas.DomainEdges
import Verif.Lemmas.DomainTiling
import Verif.Lemmas.Duo
import Verif.Lemmas.EdgeMaps
import Verif.Lemmas.EdgeOps
import Verif.Lemmas.Elimination
import Verif.Lemmas.Endless
import Verif.Lemmas.Euler
import Verif.Lemmas.Exact
import Verif.Lemmas.F64
import Verif.Lemmas.F64Split
import Verif.Lemmas.Faces
import Verif.Lemmas.Fuel
import Verif.Lemmas.General
import Verif.Lemmas.Geometry
import Verif.Lemmas.Histories
import Verif.Lemmas.HoleStep
import Verif.Lemmas.HullRing
import Verif.Lemmas.Jordan
import Verif.Lemmas.Mesh
import Verif.Lemmas.Natural
import Verif.Lemmas.NaturalCarve
import Verif.Lemmas.NaturalRefine
import Verif.Lemmas.Orders
import Verif.Lemmas.Pieces
import Verif.Lemmas.Pocket
import Verif.Lemmas.PocketRim
import Verif.Lemmas.Provenance
import Verif.Lemmas.Quad
import Verif.Lemmas.Refine
import Verif.Lemmas.Refined
import Verif.Lemmas.Region
import Verif.Lemmas.RegionCheck
import Verif.Lemmas.RegionOps
import Verif.Lemmas.Regions
import Verif.Lemmas.Rim
import Verif.Lemmas.RimAgain
import Verif.Lemmas.RimAgainSafe
import Verif.Lemmas.RimCavity
import Verif.Lemmas.RimLoop
import Verif.Lemmas.RimRun
import Verif.Lemmas.RimSafe
import Verif.Lemmas.RimSafeLoop
import Verif.Lemmas.Rollback
import Verif.Lemmas.RoundedDomain
import Verif.Lemmas.RoundedRefine
import Verif.Lemmas.RoundedRun
import Verif.Lemmas.Run
import Verif.Lemmas.Seer
import Verif.Lemmas.SeerCavity
import Verif.Lemmas.SeerRun
import Verif.Lemmas.SeerSafe
import Verif.Lemmas.SeerTotal
import Verif.Lemmas.Sets
import Verif.Lemmas.SideJump
import Verif.Lemmas.Sides
import Verif.Lemmas.Similar
import Verif.Lemmas.SimilarCalls
import Verif.Lemmas.SimilarPolyline
import Verif.Lemmas.SimilarProgram
import Verif.Lemmas.Sound
import Verif.Lemmas.Split
import Verif.Lemmas.SplitCount
import Verif.Lemmas.SplitGeo
import Verif.Lemmas.SplitSingle
import Verif.Lemmas.Steady
import Verif.Lemmas.SteadyCli
import Verif.Lemmas.SteadyGeometry
import Verif.Lemmas.SteadyMesh
import Verif.Lemmas.SteadyProgram
import Verif.Lemmas.Stokes
import Verif.Lemmas.Tiling
import Verif.Lemmas.Triangulable
import Verif.Lemmas.Triangulator
import Verif.Lemmas.UnionExact
import Verif.Lemmas.Unique
import Verif.Lemmas.WallSplit
import Verif.Lemmas.Winding
import Verif.Lemmas.WindingConst
import Verif.Props.Accessors
import Verif.Props.Admission
import Verif.Props.Again
import Verif.Props.Angle
import Verif.Props.Area
import Verif.Props.Arrange
import Verif.Props.Boolean
import Verif.Props.BooleanLimits
import Verif.Props.Boxes
import Verif.Props.Budget
import Verif.Props.Carve
import Verif.Props.CircleRounding
import Verif.Props.Circles
import Verif.Props.Conflicts
import Verif.Props.Containment
import Verif.Props.Continence
import Verif.Props.Convex
import Verif.Props.Count
import Verif.Props.Delaunay
import Verif.Props.Documents
import Verif.Props.Domains
import Verif.Props.Drawing
import Verif.Props.EdgeMaps
import Verif.Props.EdgeOps
import Verif.Props.Elements
import Verif.Props.Encroachment
import Verif.Props.FlatTriangles
import Verif.Props.Histories
import Verif.Props.HoleLimits
import Verif.Props.Holes
import Verif.Props.Hull
import Verif.Props.Insertion
import Verif.Props.Interior
import Verif.Props.LostVertices
import Verif.Props.MeshEdits
import Verif.Props.Minify
import Verif.Props.Outlines
import Verif.Props.Output
import Verif.Props.Parsing
import Verif.Props.Predicates
import Verif.Props.Program
import Verif.Props.Provenance
import Verif.Props.Quad
import Verif.Props.Quality
import Verif.Props.RefineDomain
import Verif.Props.RefineLimits
import Verif.Props.RefineSafe
import Verif.Props.Refinement
import Verif.Props.Regions
import Verif.Props.RegionsExact
import Verif.Props.Rejection
import Verif.Props.RoundedArea
import Verif.Props.RoundedCenter
import Verif.Props.RoundedCorners
import Verif.Props.RoundedDomain
import Verif.Props.RoundedExact
import Verif.Props.RoundedInsert
import Verif.Props.RoundedIntersection
import Verif.Props.RoundedMesh
import Verif.Props.RoundedQuality
import Verif.Props.RoundedRefine
import Verif.Props.RoundedSymmetry
import Verif.Props.Rounding
import Verif.Props.Segments
import Verif.Props.Sessions
import Verif.Props.Settled
import Verif.Props.Shoelace
import Verif.Props.SplitRounding
import Verif.Props.SplitSingle
import Verif.Props.Splitting
import Verif.Props.Tolerance
import Verif.Props.Triangulator
import Verif.Props.Unique
import Verif.Props.Units
import Verif.Props.Validity
import Verif.Props.Whole
