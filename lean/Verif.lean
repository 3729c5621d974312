import Verif.Lemmas.Betti
import Verif.Lemmas.CliquePersistence
import Verif.Lemmas.Cliques
import Verif.Lemmas.Collect
import Verif.Lemmas.Collects
import Verif.Lemmas.Columns
import Verif.Lemmas.Combinations
import Verif.Lemmas.Communities
import Verif.Lemmas.Complex
import Verif.Lemmas.Conversions
import Verif.Lemmas.Curvature
import Verif.Lemmas.Dual
import Verif.Lemmas.Filtration
import Verif.Lemmas.FlagLevels
import Verif.Lemmas.Flags
import Verif.Lemmas.FloydWarshall
import Verif.Lemmas.Gaussian
import Verif.Lemmas.Hierarchy
import Verif.Lemmas.HierarchyForest
import Verif.Lemmas.HierarchyLevels
import Verif.Lemmas.HierarchyLoop
import Verif.Lemmas.HierarchyPaths
import Verif.Lemmas.History
import Verif.Lemmas.Homology
import Verif.Lemmas.Kruskal
import Verif.Lemmas.LevelDiagrams
import Verif.Lemmas.LexOrder
import Verif.Lemmas.LowCount
import Verif.Lemmas.LowSpan
import Verif.Lemmas.Mesh
import Verif.Lemmas.MeshBounds
import Verif.Lemmas.MeshComponents
import Verif.Lemmas.MeshFaces
import Verif.Lemmas.MeshLoop
import Verif.Lemmas.MeshQueries
import Verif.Lemmas.Munkres
import Verif.Lemmas.Options
import Verif.Lemmas.Pairing
import Verif.Lemmas.PairingSpec
import Verif.Lemmas.Pencil
import Verif.Lemmas.PythonMatrix
import Verif.Lemmas.PythonZeroDim
import Verif.Lemmas.Reduction
import Verif.Lemmas.Rips
import Verif.Lemmas.Shannon
import Verif.Lemmas.Simplex
import Verif.Lemmas.SimplexSkeleton
import Verif.Lemmas.SortedLevels
import Verif.Lemmas.SpanningTree
import Verif.Lemmas.SparseTool
import Verif.Lemmas.SymmetricMatrix
import Verif.Lemmas.TieBreak
import Verif.Lemmas.Truncated
import Verif.Lemmas.Twist
import Verif.Lemmas.UnionFind
import Verif.Lemmas.Weights
import Verif.Lemmas.ZeroDim
import Verif.Lemmas.ZeroDimFunctor
import Verif.Lemmas.ZeroDimOrder
import Verif.Model.AdjacencyMatrixReader
import Verif.Model.AlgebraicSphere
import Verif.Model.Barycentric
import Verif.Model.BetaSkeleton
import Verif.Model.BettiNumbers
import Verif.Model.BipartiteReader
import Verif.Model.Bootstrap
import Verif.Model.Bottleneck
import Verif.Model.Cech
import Verif.Model.CliqueCommunities
import Verif.Model.CliqueGraph
import Verif.Model.CliquePersistence
import Verif.Model.Cliques
import Verif.Model.Combinations
import Verif.Model.Combine
import Verif.Model.Complex
import Verif.Model.ConfidenceSets
import Verif.Model.ConnectivityAnalysis
import Verif.Model.Conversions
import Verif.Model.CoverTree
import Verif.Model.CoverTreeLevels
import Verif.Model.CreateDiagrams
import Verif.Model.Curvature
import Verif.Model.DataDescriptors
import Verif.Model.DescriptorTool
import Verif.Model.Diagram
import Verif.Model.DiagramClasses
import Verif.Model.DiagramEntropies
import Verif.Model.DiagramJson
import Verif.Model.DiagramKernels
import Verif.Model.DiagramMean
import Verif.Model.DiagramNorms
import Verif.Model.DiagramSignature
import Verif.Model.DiagramStatistics
import Verif.Model.Dimensionality
import Verif.Model.Distances
import Verif.Model.Dowker
import Verif.Model.EccentricityExample
import Verif.Model.EdgeListReader
import Verif.Model.Entropy
import Verif.Model.Envelope
import Verif.Model.Ephemeral
import Verif.Model.Euler
import Verif.Model.Filesystem
import Verif.Model.FlexSpectrum
import Verif.Model.FloydWarshall
import Verif.Model.FractalDimension
import Verif.Model.Function
import Verif.Model.FunctionAnalysis
import Verif.Model.GmlReader
import Verif.Model.GmlWriter
import Verif.Model.GraphAnalysis
import Verif.Model.GraphmlReader
import Verif.Model.Hausdorff
import Verif.Model.Hdf5
import Verif.Model.HeatKernel
import Verif.Model.Hierarchy
import Verif.Model.ImageAnalysis
import Verif.Model.ImagePatches
import Verif.Model.IndicatorTool
import Verif.Model.Intersections
import Verif.Model.Kahan
import Verif.Model.KernelDensity
import Verif.Model.LinesAndPoints
import Verif.Model.LocalDimensionality
import Verif.Model.Matrix
import Verif.Model.MatrixReader
import Verif.Model.MeanCurvature
import Verif.Model.Mesh
import Verif.Model.MultiScaleSkeleton
import Verif.Model.Munkres
import Verif.Model.NearestNeighbours
import Verif.Model.NetworkAnalysis
import Verif.Model.OneDimExample
import Verif.Model.PajekReader
import Verif.Model.PersistenceIndicator
import Verif.Model.PersistentSpines
import Verif.Model.PhiPersistence
import Verif.Model.PiecewiseLinear
import Verif.Model.PlyExample
import Verif.Model.PlyReader
import Verif.Model.PointCloud
import Verif.Model.PythonMatrix
import Verif.Model.PythonZeroDim
import Verif.Model.QuotientSpaces
import Verif.Model.RandomGraph
import Verif.Model.RandomGraphExample
import Verif.Model.Reduction
import Verif.Model.RelevantEdges
import Verif.Model.Rips
import Verif.Model.RipsDistributions
import Verif.Model.Sampling
import Verif.Model.Simplex
import Verif.Model.SimplicialComplexReader
import Verif.Model.SingularPoints
import Verif.Model.Smoothing
import Verif.Model.SparseMatrix
import Verif.Model.SparseReader
import Verif.Model.SparseTool
import Verif.Model.SpectralAnalysis
import Verif.Model.Spine
import Verif.Model.Statistics
import Verif.Model.StepFunction
import Verif.Model.StepNormalize
import Verif.Model.StratifiedAnalysis
import Verif.Model.StratifiedDiagram
import Verif.Model.StratifiedGraph
import Verif.Model.StratifiedNormalize
import Verif.Model.Strings
import Verif.Model.SymmetricMatrix
import Verif.Model.TangentSpace
import Verif.Model.TextReaders
import Verif.Model.Tikz
import Verif.Model.TopologicalDistance
import Verif.Model.TriangulationReader
import Verif.Model.UnionFind
import Verif.Model.Utilities
import Verif.Model.VietorisRipsExample
import Verif.Model.VtkExample
import Verif.Model.VtkReader
import Verif.Model.Wasserstein
import Verif.Model.WickedTriangulations
import Verif.Model.Witness
import Verif.Model.WitnessExample
import Verif.Model.ZeroDimFunctor
import Verif.Props.AdjacencyMatrixReader
import Verif.Props.AlgebraicSphere
import Verif.Props.Barycentric
import Verif.Props.BetaSkeleton
import Verif.Props.BettiNumbers
import Verif.Props.BipartiteReader
import Verif.Props.Bootstrap
import Verif.Props.Bottleneck
import Verif.Props.Cech
import Verif.Props.CliqueCommunities
import Verif.Props.CliqueGraph
import Verif.Props.CliquePersistence
import Verif.Props.Cliques
import Verif.Props.Combine
import Verif.Props.Complex
import Verif.Props.Components
import Verif.Props.ConfidenceSets
import Verif.Props.ConnectivityAnalysis
import Verif.Props.Conversions
import Verif.Props.CoverTree
import Verif.Props.CoverTreeLevels
import Verif.Props.CreateDiagrams
import Verif.Props.Curvature
import Verif.Props.DataDensities
import Verif.Props.DataDescriptors
import Verif.Props.Degrees
import Verif.Props.DescriptorTool
import Verif.Props.Diagram
import Verif.Props.DiagramClasses
import Verif.Props.DiagramEntropies
import Verif.Props.DiagramJson
import Verif.Props.DiagramKernels
import Verif.Props.DiagramMean
import Verif.Props.DiagramNorms
import Verif.Props.DiagramSignature
import Verif.Props.DiagramStatistics
import Verif.Props.Dimensionality
import Verif.Props.Distances
import Verif.Props.Dowker
import Verif.Props.EccentricityExample
import Verif.Props.EdgeListReader
import Verif.Props.Entropy
import Verif.Props.Envelope
import Verif.Props.Ephemeral
import Verif.Props.Euler
import Verif.Props.Filesystem
import Verif.Props.FlexSpectrum
import Verif.Props.FloydWarshall
import Verif.Props.FractalDimension
import Verif.Props.Function
import Verif.Props.FunctionAnalysis
import Verif.Props.GmlReader
import Verif.Props.GmlWriter
import Verif.Props.GraphAnalysis
import Verif.Props.GraphmlReader
import Verif.Props.Hausdorff
import Verif.Props.Hdf5
import Verif.Props.HeatKernel
import Verif.Props.Hierarchy
import Verif.Props.ImageAnalysis
import Verif.Props.ImagePatches
import Verif.Props.IndicatorTool
import Verif.Props.Intersections
import Verif.Props.Kahan
import Verif.Props.KernelDensity
import Verif.Props.Laplacian
import Verif.Props.LinesAndPoints
import Verif.Props.LocalDimensionality
import Verif.Props.Matrix
import Verif.Props.MatrixReader
import Verif.Props.MeanCurvature
import Verif.Props.MeanShift
import Verif.Props.Mesh
import Verif.Props.MultiScaleSkeleton
import Verif.Props.Munkres
import Verif.Props.NearestNeighbours
import Verif.Props.NetworkAnalysis
import Verif.Props.OneDimExample
import Verif.Props.PajekReader
import Verif.Props.Partitions
import Verif.Props.PersistenceIndicator
import Verif.Props.PersistentBetti
import Verif.Props.PersistentSpines
import Verif.Props.PhiPersistence
import Verif.Props.PiecewiseLinear
import Verif.Props.PiecewiseLinearIntegral
import Verif.Props.PlyExample
import Verif.Props.PlyReader
import Verif.Props.PointCloud
import Verif.Props.PrincipalComponents
import Verif.Props.PythonMatrix
import Verif.Props.PythonZeroDim
import Verif.Props.QuotientSpaces
import Verif.Props.RandomGraph
import Verif.Props.RandomGraphExample
import Verif.Props.RectangularReduction
import Verif.Props.Reduction
import Verif.Props.RelevantEdges
import Verif.Props.Rips
import Verif.Props.RipsDistributions
import Verif.Props.Sampling
import Verif.Props.Simplex
import Verif.Props.SimplexQueries
import Verif.Props.SimplicialComplexReader
import Verif.Props.SingularPoints
import Verif.Props.Smoothing
import Verif.Props.SparseReader
import Verif.Props.SparseTool
import Verif.Props.SpectralAnalysis
import Verif.Props.Spine
import Verif.Props.Stability
import Verif.Props.Statistics
import Verif.Props.StepFunction
import Verif.Props.StepFunctionSum
import Verif.Props.StepNormalize
import Verif.Props.StratifiedAnalysis
import Verif.Props.StratifiedDiagram
import Verif.Props.StratifiedGraph
import Verif.Props.StratifiedNormalize
import Verif.Props.Strings
import Verif.Props.SymmetricMatrix
import Verif.Props.TangentSpace
import Verif.Props.TextReaders
import Verif.Props.TieBreak
import Verif.Props.Tikz
import Verif.Props.TopDown
import Verif.Props.TopologicalDistance
import Verif.Props.TriangulationReader
import Verif.Props.UnionFind
import Verif.Props.Utilities
import Verif.Props.VietorisRips
import Verif.Props.VietorisRipsExample
import Verif.Props.VtkExample
import Verif.Props.VtkReader
import Verif.Props.Wasserstein
import Verif.Props.WickedTriangulations
import Verif.Props.Witness
import Verif.Props.WitnessExample
import Verif.Props.ZeroDim
import Verif.Props.ZeroDimFunctor
import Verif.Spec.Assignment
import Verif.Spec.BettiNumbers
import Verif.Spec.BipartiteReader
import Verif.Spec.Bootstrap
import Verif.Spec.Bottleneck
import Verif.Spec.Cech
import Verif.Spec.CliqueCommunities
import Verif.Spec.CliquePersistence
import Verif.Spec.Collects
import Verif.Spec.Combine
import Verif.Spec.Complex
import Verif.Spec.Components
import Verif.Spec.ConfidenceSets
import Verif.Spec.Conversions
import Verif.Spec.CoverTree
import Verif.Spec.CoverTreeLevels
import Verif.Spec.CreateDiagrams
import Verif.Spec.Curvature
import Verif.Spec.DataDescriptors
import Verif.Spec.DescriptorTool
import Verif.Spec.DiagramClasses
import Verif.Spec.DiagramEntropies
import Verif.Spec.DiagramMean
import Verif.Spec.DiagramSignature
import Verif.Spec.DiagramStatistics
import Verif.Spec.Dimensionality
import Verif.Spec.Dowker
import Verif.Spec.EccentricityExample
import Verif.Spec.Entropy
import Verif.Spec.Envelope
import Verif.Spec.Ephemeral
import Verif.Spec.Euler
import Verif.Spec.Filesystem
import Verif.Spec.FlexSpectrum
import Verif.Spec.FractalDimension
import Verif.Spec.Function
import Verif.Spec.FunctionAnalysis
import Verif.Spec.GmlReader
import Verif.Spec.GmlWriter
import Verif.Spec.GraphAnalysis
import Verif.Spec.GraphmlReader
import Verif.Spec.Graphs
import Verif.Spec.Grid
import Verif.Spec.Hdf5
import Verif.Spec.HeatKernel
import Verif.Spec.Hierarchy
import Verif.Spec.Homology
import Verif.Spec.ImageAnalysis
import Verif.Spec.ImagePatches
import Verif.Spec.IndicatorTool
import Verif.Spec.Json
import Verif.Spec.LevelAnalysis
import Verif.Spec.LinesAndPoints
import Verif.Spec.LocalDimensionality
import Verif.Spec.Matching
import Verif.Spec.Matrix
import Verif.Spec.MeanCurvature
import Verif.Spec.Mesh
import Verif.Spec.MultiScaleSkeleton
import Verif.Spec.NetworkAnalysis
import Verif.Spec.Options
import Verif.Spec.PajekReader
import Verif.Spec.Paths
import Verif.Spec.PersistenceIndicator
import Verif.Spec.PersistentBetti
import Verif.Spec.PersistentSpines
import Verif.Spec.PhiPersistence
import Verif.Spec.PiecewiseLinear
import Verif.Spec.PlyExample
import Verif.Spec.PlyReader
import Verif.Spec.PointCloud
import Verif.Spec.PythonMatrix
import Verif.Spec.RandomGraph
import Verif.Spec.RandomGraphExample
import Verif.Spec.RectangularReduction
import Verif.Spec.RelevantEdges
import Verif.Spec.Rips
import Verif.Spec.RipsDistributions
import Verif.Spec.Sampling
import Verif.Spec.SingularPoints
import Verif.Spec.Smoothing
import Verif.Spec.SpanningTree
import Verif.Spec.SparseReader
import Verif.Spec.SparseTool
import Verif.Spec.SpectralAnalysis
import Verif.Spec.Stability
import Verif.Spec.Statistics
import Verif.Spec.StepFunction
import Verif.Spec.StratifiedAnalysis
import Verif.Spec.StratifiedDiagram
import Verif.Spec.StratifiedGraph
import Verif.Spec.StratifiedNormalize
import Verif.Spec.Strings
import Verif.Spec.Subdivision
import Verif.Spec.TangentSpace
import Verif.Spec.TextReaders
import Verif.Spec.Tikz
import Verif.Spec.TopologicalDistance
import Verif.Spec.TriangulationReader
import Verif.Spec.UnionFind
import Verif.Spec.VietorisRipsExample
import Verif.Spec.VtkExample
import Verif.Spec.VtkReader
import Verif.Spec.WickedTriangulations
import Verif.Spec.Witness
import Verif.Spec.WitnessExample
import Verif.Spec.ZeroDimFunctor
