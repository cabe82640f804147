import Verif.Lemmas.AddPolys
import Verif.Lemmas.AllValid
import Verif.Lemmas.Angle
import Verif.Lemmas.AngleSum
import Verif.Lemmas.Arcs
import Verif.Lemmas.Batch
import Verif.Lemmas.BeamPlane
import Verif.Lemmas.Betti
import Verif.Lemmas.Build
import Verif.Lemmas.CanonicalForm
import Verif.Lemmas.Canonicalize
import Verif.Lemmas.CellComp
import Verif.Lemmas.CellGeom
import Verif.Lemmas.CellLoop
import Verif.Lemmas.CellTree
import Verif.Lemmas.CellWalk
import Verif.Lemmas.CellWord
import Verif.Lemmas.ChainFlow
import Verif.Lemmas.ChordSplit
import Verif.Lemmas.ChordTest
import Verif.Lemmas.Composite
import Verif.Lemmas.Concyclic
import Verif.Lemmas.Content
import Verif.Lemmas.Crossing
import Verif.Lemmas.CylinderEmbedded
import Verif.Lemmas.CylinderExtent
import Verif.Lemmas.CylinderHolonomy
import Verif.Lemmas.CylinderMain
import Verif.Lemmas.CylinderPolygons
import Verif.Lemmas.CylinderQuad
import Verif.Lemmas.CylinderSides
import Verif.Lemmas.Dict
import Verif.Lemmas.Disjoint
import Verif.Lemmas.Duality
import Verif.Lemmas.EarClip
import Verif.Lemmas.EarExists
import Verif.Lemmas.EarTotal
import Verif.Lemmas.EdgeCocycle
import Verif.Lemmas.EdgeMap
import Verif.Lemmas.EmptyDisk
import Verif.Lemmas.ExistsTri
import Verif.Lemmas.FlipChain
import Verif.Lemmas.FlipDisk
import Verif.Lemmas.FlowEnds
import Verif.Lemmas.FlowExit
import Verif.Lemmas.FlowSegment
import Verif.Lemmas.FundamentalGens
import Verif.Lemmas.GlueAll
import Verif.Lemmas.Gluing
import Verif.Lemmas.GrahamScan
import Verif.Lemmas.Grid
import Verif.Lemmas.HalfPlanes
import Verif.Lemmas.HalfSpaceCanonical
import Verif.Lemmas.HalfSpaceCycle
import Verif.Lemmas.HalfSpaceDisk
import Verif.Lemmas.HalfSpaceEdge
import Verif.Lemmas.HalfSpaceExtend
import Verif.Lemmas.HalfSpaceLoop
import Verif.Lemmas.HalfSpaceOrder
import Verif.Lemmas.HalfSpaceRedundant
import Verif.Lemmas.HalfSpaceSearch
import Verif.Lemmas.HalfSpaceSegment
import Verif.Lemmas.HalfSpaceSets
import Verif.Lemmas.HalfSpaceSort
import Verif.Lemmas.HomologyClass
import Verif.Lemmas.HomologyCycles
import Verif.Lemmas.HomologyMorphism
import Verif.Lemmas.HomologyRows
import Verif.Lemmas.HullEdges
import Verif.Lemmas.HullSets
import Verif.Lemmas.IntersectionDual
import Verif.Lemmas.JInvariant
import Verif.Lemmas.LazyDelaunayInv
import Verif.Lemmas.LazyTriangulate
import Verif.Lemmas.LocalPosition
import Verif.Lemmas.MapM
import Verif.Lemmas.MidpointAlgebra
import Verif.Lemmas.Orbit
import Verif.Lemmas.Orbits
import Verif.Lemmas.Patch
import Verif.Lemmas.PathMap
import Verif.Lemmas.PathMapInstances
import Verif.Lemmas.PerfectPairing
import Verif.Lemmas.Planar
import Verif.Lemmas.PolyMap
import Verif.Lemmas.Polygon
import Verif.Lemmas.PolygonCorners
import Verif.Lemmas.PolygonEdges
import Verif.Lemmas.PolygonSides
import Verif.Lemmas.PolygonVertices
import Verif.Lemmas.Rebuild
import Verif.Lemmas.ReducedWords
import Verif.Lemmas.Retriangulate
import Verif.Lemmas.Roots
import Verif.Lemmas.SaddleChain
import Verif.Lemmas.SaddleLoop
import Verif.Lemmas.SaddleSearch
import Verif.Lemmas.SaddleTerm
import Verif.Lemmas.SaddleWedge
import Verif.Lemmas.Segment
import Verif.Lemmas.SimplePoly
import Verif.Lemmas.SpanningTree
import Verif.Lemmas.SplitPoly
import Verif.Lemmas.Standardize
import Verif.Lemmas.Stands
import Verif.Lemmas.Strip
import Verif.Lemmas.StripCore
import Verif.Lemmas.StripLoop
import Verif.Lemmas.StripSaddle
import Verif.Lemmas.SurfaceCode
import Verif.Lemmas.SurfaceOps
import Verif.Lemmas.Swap
import Verif.Lemmas.SymplecticForms
import Verif.Lemmas.TrajectoryCrossings
import Verif.Lemmas.TranslationIso
import Verif.Lemmas.Transport
import Verif.Lemmas.Traversal
import Verif.Lemmas.Triangles
import Verif.Lemmas.Turns
import Verif.Lemmas.UnfoldingAngles
import Verif.Lemmas.UnfoldingHolonomy
import Verif.Lemmas.UnfoldingStratum
import Verif.Lemmas.UnionFind
import Verif.Lemmas.Veering
import Verif.Lemmas.VertexLoop
import Verif.Lemmas.WalkHomotopy
import Verif.Lemmas.Wp
import Verif.Model.Angles
import Verif.Model.Cache
import Verif.Model.Canonicalize
import Verif.Model.Categories
import Verif.Model.Circle
import Verif.Model.Cylinder
import Verif.Model.Delaunay
import Verif.Model.Dict
import Verif.Model.Doubles
import Verif.Model.Euclidean
import Verif.Model.Families
import Verif.Model.FlipHomology
import Verif.Model.Flow
import Verif.Model.FlowMap
import Verif.Model.FundamentalGens
import Verif.Model.FundamentalGroup
import Verif.Model.HomologyClass
import Verif.Model.HomologyGroup
import Verif.Model.HomologyMaps
import Verif.Model.Hyperbolic
import Verif.Model.HyperbolicEdges
import Verif.Model.HyperbolicHull
import Verif.Model.HyperbolicMidpoint
import Verif.Model.HyperbolicPerpendicular
import Verif.Model.HyperbolicPolygon
import Verif.Model.JInvariant
import Verif.Model.Lazy
import Verif.Model.LazyDelaunay
import Verif.Model.LazyDelaunayTriangulate
import Verif.Model.LazyTriangulate
import Verif.Model.MatrixGroup
import Verif.Model.Morphism
import Verif.Model.Normalize
import Verif.Model.OrbitClosure
import Verif.Model.Origami
import Verif.Model.Plane
import Verif.Model.Polygon
import Verif.Model.PolygonFlow
import Verif.Model.RamifiedCover
import Verif.Model.Saddle
import Verif.Model.SaddleHomology
import Verif.Model.Similarity
import Verif.Model.Surface
import Verif.Model.SurfaceOps
import Verif.Model.SurfaceViews
import Verif.Model.SymplecticBasis
import Verif.Model.Tangent
import Verif.Model.ThurstonVeech
import Verif.Model.Topology
import Verif.Model.TrajectoryCrossings
import Verif.Model.TranslationTrajectory
import Verif.Model.Triangulate
import Verif.Model.Triangulation
import Verif.Model.UnfoldingAngles
import Verif.Model.Veering
import Verif.Model.Vertices
import Verif.Props.Angles
import Verif.Props.Between
import Verif.Props.Cache
import Verif.Props.Canonicalize
import Verif.Props.Categories
import Verif.Props.Centroid
import Verif.Props.ChordTriangulation
import Verif.Props.Circle
import Verif.Props.Compare
import Verif.Props.Copy
import Verif.Props.Covers
import Verif.Props.Cylinder
import Verif.Props.CylinderExamples
import Verif.Props.Delaunay
import Verif.Props.DelaunayEnergy
import Verif.Props.Doubles
import Verif.Props.EdgeTransformation
import Verif.Props.Equality
import Verif.Props.Euclidean
import Verif.Props.Euler
import Verif.Props.EulerInvariance
import Verif.Props.Families
import Verif.Props.FlipHomology
import Verif.Props.Flow
import Verif.Props.FlowMap
import Verif.Props.FundamentalGens
import Verif.Props.FundamentalGroup
import Verif.Props.GaussBonnet
import Verif.Props.Gluing
import Verif.Props.Homology
import Verif.Props.HomologyClass
import Verif.Props.HomologyClassSurface
import Verif.Props.HomologyGroup
import Verif.Props.HomologyGroupExamples
import Verif.Props.HomologyInstances
import Verif.Props.HomologyMaps
import Verif.Props.HomologyMorphism
import Verif.Props.Hyperbolic
import Verif.Props.HyperbolicEdges
import Verif.Props.HyperbolicEquality
import Verif.Props.HyperbolicHull
import Verif.Props.HyperbolicIsometry
import Verif.Props.HyperbolicMidpoint
import Verif.Props.HyperbolicPerpendicular
import Verif.Props.HyperbolicPolygon
import Verif.Props.Intersection
import Verif.Props.JInvariant
import Verif.Props.JoinPolygons
import Verif.Props.Lazy
import Verif.Props.LazyDelaunay
import Verif.Props.LazyDelaunayTriangulate
import Verif.Props.LazyTriangulate
import Verif.Props.LoopIntersection
import Verif.Props.MatrixFinite
import Verif.Props.MatrixGroup
import Verif.Props.Morphism
import Verif.Props.Normalize
import Verif.Props.OrbitClosure
import Verif.Props.Origami
import Verif.Props.PointAngle
import Verif.Props.PointInPolygon
import Verif.Props.PointLocal
import Verif.Props.PointPosition
import Verif.Props.Polygon
import Verif.Props.PolygonCheck
import Verif.Props.PolygonFlow
import Verif.Props.PolygonIso
import Verif.Props.RamifiedCover
import Verif.Props.Relabel
import Verif.Props.Roots
import Verif.Props.Saddle
import Verif.Props.SaddleConnection
import Verif.Props.SaddleConstructor
import Verif.Props.SaddleExamples
import Verif.Props.SaddleHomology
import Verif.Props.SaddleList
import Verif.Props.SaddleSearch
import Verif.Props.SaddleTermination
import Verif.Props.SegmentEdge
import Verif.Props.Similarity
import Verif.Props.Subdivide
import Verif.Props.SubdivideEdges
import Verif.Props.SubdividePolygon
import Verif.Props.SurfacePoint
import Verif.Props.SymplecticBasis
import Verif.Props.SymplecticBasisExamples
import Verif.Props.Tangent
import Verif.Props.TangentEnters
import Verif.Props.TangentRotation
import Verif.Props.ThurstonVeech
import Verif.Props.Trajectory
import Verif.Props.TrajectoryCoding
import Verif.Props.TrajectoryCrossingExamples
import Verif.Props.TrajectoryCrossings
import Verif.Props.TranslationTrajectory
import Verif.Props.TranslationTrajectoryExamples
import Verif.Props.TriangleFlip
import Verif.Props.Triangulate
import Verif.Props.TriangulateTotal
import Verif.Props.UnfoldingAngles
import Verif.Props.Veering
import Verif.Props.VertexZero
import Verif.Props.Views
