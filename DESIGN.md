# Formal model of Aleph in Lean 4: design

The code under study is the header-only C++ library in `/repo` (persistent
homology).  It is read as text; nothing of it is compiled here.  The model is
a set of total, computable Lean functions in `lean/Verif/Model/*`, each citing
the file and lines it models.  Independent specifications live in
`lean/Verif/Spec/*`, helper lemmas in `lean/Verif/Lemmas/*`, and the property
theorems (those named in `MANIFEST.json`) in `lean/Verif/Props/*`.  Beside each
property theorem an `example` or a named concrete value shows that its
hypotheses can be met.  `seeded/LOG.jsonl` records the wrong programs the
theorems were tested against.

## Modelling conventions

* Containers (`std::vector`, `std::list`, `std::set`, multi-index) become Lean
  `List`s (in iteration order); in-place mutation becomes a function returning
  the new value.
* Loops become structural recursion or folds; `while` loops without an obvious
  structural measure take fuel and a theorem shows that the fuel suffices
  (so termination is a theorem, not an assumption).
* Exceptions, failed look-ups (`.at`, `index`) and undefined behaviour (reads
  past the end, division by zero, ...) are explicit outcomes
  (`Option`/`Except`).
* Vertex and index types are unbounded naturals unless a property is about
  wrap-around; weights (`DataType`) are elements of an arbitrary linear order
  or of an ordered field.  Floating point rounding and NaN are not modelled.
* `std::sort` is modelled by insertion sort for the given comparator; where the
  result is used the comparator is proved total on the elements, so that the
  sorted order is unique and the choice of algorithm cannot be observed, or
  the theorem holds for every permutation.
* The iteration order of `std::unordered_*` is unspecified; the model either
  takes the order as an arbitrary parameter or the result is proved
  independent of it.
* Random choices are parameters of the model; the theorems hold for all of them.
* External libraries (Boost Graph shortest paths and matching, `std::pow`)
  are replaced by their contract: a hypothesis that is shown to be satisfiable
  or a definition of the specified result.

A property that the code violates has the status `partial`: the theorems then
are the exact behaviour, or the part that holds (`_partial`), and a concrete
counterexample (`_wrong`, `_witness`).

## Plan per property

| id | what is modelled | how it is proved |
|----|------------------|------------------|
| C01 | `set_symmetric_difference` on lists; the three representations | induction over both lists; membership xor, strict order kept |
| C02 | three representation machines with a common type of operations | simulation over lists of operations |
| C03 | `Standard` with look-up table, inner loop with fuel | maximum index strictly decreases; outer loop invariant "distinct lows" |
| C04 | same | invariant: column j in original column j + span of earlier columns |
| C05 | `calculatePersistencePairing` | lows of vectors in a prefix span = lows of reduced columns; unique |
| C06 | `Twist` | cleared column is in the span of earlier columns because boundary of boundary is 0 |
| C07 | `dualize` | entry-wise characterisation, involution of n-1-i |
| C08 | `dualize` and pairing | ranks of lower-left submatrices (Mathlib `Matrix.rank`), invariant under anti-transposition |
| C09 | pairing | from C05 plus dimension bookkeeping |
| C10 | pairing | counting reduced columns = rank / nullity; cycles and boundaries counted as sets of chains |
| C11 | `makeBoundaryMatrix` | double-removal pairing of vertices |
| C12 | `makePersistenceDiagrams` | filter/map identities |
| C13, C14 | Union-Find as a parent map with path compression | forest invariant with rank measure; refinement to an equivalence relation over histories |
| C15 | `calculateConnectedComponents` | C13 + edges |
| C16, C17 | zero-dimensional persistence loop | invariant relating components to spans of edge boundaries |
| C18-C20 | `Simplex` | list lemmas on strictly descending lists |
| C21 | comparators of the filtrations | order axioms; uniqueness of sorted permutations |
| C22-C25 | `SimplicialComplex` | invariants over lists of operations; fixpoint arguments with a decreasing measure |
| C26-C28 | Rips expansion and construction | clique induction |
| C29, C30 | clique enumeration | recursion invariant (R,P,X) |
| C31 | Floyd-Warshall | paths with restricted inner vertices |
| C32 | cone, suspension | membership and counting |
| C33 | both spine algorithms, arbitrary hash map order | every step is an elementary collapse; collapses preserve the number of cycles modulo boundaries |
| C34 | Euler characteristic | code violates it: exact value computed and counterexamples |
| C35 | Munkres | dual feasibility + complementary slackness; lexicographic measure for termination |
| C36 | Wasserstein distance | cost matrix of C35 refined to matchings of diagrams |
| C37 | Hausdorff | min/max lemmas |
| C38 | bottleneck distance | code violates it: counterexample, cases in which it is right, cases in which it is undefined |
| C39 | diagram container | list and multiset lemmas |
| C40 | persistence indicator function | sweep invariant; counterexamples for degenerate input |
| C41 | symmetric matrix | index arithmetic; 16 bit counterexample |
| C42 | piecewise linear functions | interpolation lemmas over an ordered field; integral as a sum over segments compared with antiderivatives |
| C43 | cover tree | invariant (levels, covering, separation) over all insertion histories, termination of raising the root |
| C44 | Dowker complexes | membership characterisation relative to shortest paths |
| C45 | witness complexes and landmark selection | membership characterisation; greedy invariant of max-min |
| C46 | skeleton, filter | list lemmas |
| C47 | partition, perversities, intersection homology | stable partition; truncated matrices and chains with boundary in a subset |
| C48 | barycentric subdivision | flags of faces; every flag is collected once; alternating sum over flags ending in a given simplex |
| C49 | Kahan summation | invariant c = 0 |
| C50 | step functions | sorted disjoint intervals as invariant; sum by events |
| C51 | composition of C05, C08, C10-C12 | refinement chain down to chains and cycles of the complex; persistent Betti numbers by counting creators, with the rank counts of C52 |
| C52 | same | number of pairs in a quadrant = rank of a boundary map between sublevel sets, inclusion-exclusion |
| C53 | sparse binary matrices | list/set lemmas over histories |
| C54 | `next_combination` | lexicographic successor, every subset once |
| C55 | top-down Rips expansion | C54 + maximal cliques |
| C56 | clique graph | membership characterisation |
| C57 | betti numbers from C51 | counting paired and unpaired simplices |
| C58 | nearest neighbour distances | min lemmas |
| C59 | `for_each_combination` | recursion of `combine_discontinuous`, array contents as state |
| C60 | Vectors as lists of coordinates; the grouped loop with early exit and the remainder loop as recursive functions, reading past the end as `none` | induction along the groups; metric axioms by induction, Euclidean norm of Mathlib for the triangle inequality |
| C61 | `std::sort` as a parameter with its contract (permutation without descent for strict weak orders) | two sorted permutations of the same values coincide; exchange argument for unreported points |
| C62 | The loop over dimensions with the iteration over combinations of C59; `Miniball` as a parameter with its contract | early stop by monotonicity of smallest enclosing balls; membership, distinctness and monotone data, then the theorem about sorting by data; contract satisfiable by compactness |
| C63 | Vectors as lists, balls, lune test, nested loops | theorem of Stewart turns the test for both balls into a condition on squared distances; monotone in beta |
| C64 | Both loops over `push_back`; the stable sort of the indices, the loop that fills the matrix with its vertex map, the extension and permutation of the values | closed form of the cells; a stable sort orders by value, then index; the matrix loop is shown equal to `makeBoundaryMatrix` of the sorted path step by step |
| C65 | `calculatePersistenceDiagram(matrix, values)` as composition of C05 and C12 | partial: pairing from C05 and C64; unpaired vertices by the elder rule of C16; exception because the unpaired minimum is looked up |
| C66 | Loops over points with the compensated summation of C49, `std::pow` as the real power function | sums by induction; bounds and limit from monotonicity of real powers and squeezing |
| C67 | `std::sort` with the lexicographic comparison, `std::unique_copy`, `std::count` | sorted lists without neighbours that are equal are strictly sorted; sums grouped by multiplicity |
| C68 | Double loop with compensated sum; the three kernel values of the pseudo-metric are transcribed as they are | partial: sums by induction; positive semidefiniteness by the power series of the exponential; the pseudo-metric is shown to be zero |
| C69 | Double loops with compensated sums; square roots of negative numbers are `none` | the Gaussian form of weighted points is a series of sums of squares of moments; it vanishes only if all moments do, hence all weights (interpolation by polynomials); triangle inequality from Cauchy-Schwarz |
| C70 | Lists of characters; the token iterator as a loop with the part read so far | inductive specification of fields; existence by induction on the length, and the program computes it |
| C71 | Flat list with offsets | `drop` and `take` of a flattened list of equally long lists |
| C72 | Loop over lines with counting of line feeds, comments, and the exceptions of `set`; numbers are read by a parameter | partial: invariant of the loop (the points read so far, then zeros); round trip via the specification of fields and lines; exact behaviour without final line feed |
| C73 | Loops over all positions, one list of simplices, complex by insertion | the simplices are enumerated by position; no vertex set occurs twice since codes of positions are injective; faces precede cofaces in the list; counting by sums over rows |
| C74 | Lines, trimming and splitting as in C70; extraction of words; numbers are read by a parameter | partial: the words of the text are the words of its lines; exact behaviour for empty lines and comments |
| C75 | Loops over the upper triangle, vertices, sort by data | partial: characterisation of the filtration order by the weights; minimum and maximum of the entries; negative result for the maximum |
| C76 | Counting of lines, extraction of words up to the first error | partial: as C74; exact behaviour for comments and for numbers of values that are not a square |
| C77 | Loop over lines including the extra iteration at the end of the stream; labels as association list that survives the call; sets of simplices as sorted lists without duplicates | partial: invariant for labels and numbers; the extra iteration repeats the last line at most, which has no effect; lexicographic order puts faces first; general negative result for readers that are used again |
| C78 | Loops over persistence values with real numbers, sorted Kahan summation, NaN as `none` | partial: reduction to the Shannon entropy; bounds by concavity of the logarithm (`log x <= x - 1`); negative result for points on the diagonal |
| C79 | Transformation to point clouds, brute-force neighbour search of C61, regular grid as list of counters, undefined behaviour as `none` | reduction to the neighbour theorem of C61; counters after the loop by induction over the points; cells of extreme points |
| C80 | Loops over simplices with set intersections of sorted boundaries; result in machine integers of any width | partial: exact value by counting parallel neighbours; correct if and only if every simplex of the dimension has a coface |
| C81 | Loops with real weights, square roots and exceptions as `none` | partial: upper bound in general (triangle inequality), equality in the top dimension and for unit weights; counterexample |
| C82 | `std::map` as a list with ascending keys | partial: counters after the loop by induction; list of degrees of non-isolated vertices; handshake lemma by double counting |
| C83 | `std::set_intersection` on sorted vertex sets, wrap-around of `n-2`, exception for empty complexes | counting, double counting, Gauss-Bonnet with arccos(1/2) = pi/3 |
| C84 | `Envelope.hh` function by function, memory behind the end of the array of points as parameter | partial: loop invariant for runs of equal coordinates; piecewise linear function of C42; the program reads behind the end for every non-empty diagram |
| C85 | Loops of `Statistics.hh` over real numbers, NaN as `none` | algebra of finite sums; Cauchy-Schwarz inequality for the relation between skewness and kurtosis |
| C86 | `median` with `std::nth_element` as parameter with a contract | counting elements on either side of the middle of the sorted range; optimality of the median for the sum of distances |
| C87 | `Bootstrap.hh` with random numbers as parameter, index computation with unsigned wrap-around | partial: position of order statistics by counting; the interval with Student's distribution has the wrong level |
| C88 | `RandomGraph.hh` with the sequence of random decisions as parameter; the unbounded loop of the weighted generator as the position of the first failure | induction over the loops: the pairs are visited in lexicographic order, pair number r receives decision number r; every graph arises; no termination without a failure |
| C89 | `eccentricities` for a function of distances, `none` for undefined behaviour | sums over all other points; equivariance under permutations of the points; power mean inequality for the comparison of orders |
| C90 | `estimateDensityTruncatedGaussian` with Kahan sums over the real numbers | partial: exact value of the loop; equality with the textbook estimate if and only if the bandwidth is one or nothing is to be smoothed (strict comparison of all terms) |
| C91 | `estimateDensityDistanceToMeasure` on top of the brute-force neighbour search of C61 | reduction to C61; exchange argument for the minimal sum |
| C92 | `estimateLensDataDepth` with counters as a list | counters after the loops by induction; injection into two-element subsets for the bound |
| C93 | `meanShiftSmoothing` on top of C61, iteration by recursion on the number of steps | invariant of the iteration: weighted means of the previous values with fixed neighbours |
| C94 | `correlationDimensionIntegral` with `std::map` as a list with ascending keys | number of entries below a threshold as invariant of the insertions |
| C95 | `correlationDimension` with logarithms as `none` for non-positive arguments, on top of the model of C85 | decomposition of the sum of squared residuals; uniqueness of the minimum gives the power law and invariance |
| C96 | `weightedAdjacencyMatrix`, `weightedLaplacianMatrix` as functions of two indices, with the map of vertices to indices | invariant of the loop over all simplices (distinct vertex sets); quadratic form as a sum of squares |
| C97 | `HeatKernel` with the eigensystem solver of Eigen as a parameter (contract: ascending eigenvalues, orthonormal eigenvectors; existence by the spectral theorem) | partial: completeness of the basis gives initial value, semigroup and heat equation; exponential series of a non-negative matrix gives positivity. `determinant` is always zero, the evaluation for all vertices always fails |
| C98 | `pinvWeightedLaplacianMatrix` with inversion as a parameter and the division of integers as it is | partial: the constant vector is in the kernel of the matrix that is inverted, as soon as there are two vertices |
| C99 | `bisect` of `Partitions.hh` on top of C96 and the median of C86 | filters of the list of simplices; counting of vertices by C86 |
| C100 | `logarithmicSamplingInterval`, `setSkip` | partial: kernel of the quadratic form for connected complexes; exponential form of the samples. A single sample and the flag `skip` give undefined values |
| C101 | `KernelDensityEstimator` with all kernels of `math/KernelDensityEstimator.hh`, over real numbers | Gaussian integrals of Mathlib; partial: the normalising constant of the Gaussian kernel is that of one dimension |
| C102 | `estimateLocalDimensionalityNearestNeighbours( container, k )` on top of the neighbour search of C61 | uniqueness of sorted permutations; increment of means |
| C103 | the same with a range of numbers of neighbours | partial: least squares; the last mean is not used |
| C104 | `estimateLocalDimensionalityNearestNeighboursMLE` | strict concavity of the logarithm: each summand is the unique maximum of the likelihood |
| C105 | `PrincipalComponentAnalysis` with the singular value decomposition of Eigen as a parameter (contract: thin decomposition; existence by the spectral theorem) | coordinates with respect to singular vectors, Bessel's inequality; partial: scaled by the number of coordinates instead of points |
| C106 | `estimateLocalDimensionalityPCA` on top of C61 and C105 | invariant of the search for the largest gap; rank of matrices |
| C107 | `intersect` of a complex with a simplex, exceptions in a function declared noexcept as termination | characterisation of the generated simplices as the common faces; shortcut if the simplex is present |
| C108 | `intersectWithConstrainedDimension`, which filters by dimension before intersecting | partial: exact set of results; counterexample with a maximal edge of lower dimension |
| C109 | `mean` on top of the models of `Munkres.hh` (C35) and `Wasserstein.hh` (C36), the random choice as parameter, bounded number of iterations | partial: invariant of the loop (size, interval of coordinates, points off the diagonal), optimality of all assignments from C35, fixed point for equal diagrams; counterexamples for dimensions and termination |
| C110 | `BoundaryMatrix::load` on texts (lines and whitespace as in `Spec.Lines`, `Spec.Words`), `std::stoul` as a parameter | partial: exact set of accepted texts and the matrix for each of them, round trip; witnesses for indented comments, unopened files and indices beyond the number of columns |
| C111 | `io::load` for persistence diagrams on texts, `utilities::convert` as a parameter | exact set of accepted texts and the diagram for each of them; round trip; lines of whitespace are errors |
| C112 | `writeJSON` as text, `readJSON` on the value of the document | partial: the output derives the expected object in the grammar of JSON (`Spec.IsJson`) for plain names; exact set of accepted documents; round trip; witnesses for missing escapes and clashing keys |
| C113 | `ExtendedPersistenceHierarchy::operator()`: tags of edges, disjoint sets, interlevel sets, walk along the predecessor map; Boost's breadth-first search as a parameter with the contract `IsSearch` | loop invariant on top of the one for zero-dimensional persistent homology (C16); witness for positions |
| C114 | as C113 | children: merges correspond to persistence pairs; no cycles: each new edge joins two components that were separate before (induction over the filtration); trees: induction over the filtration, with monotone data |
| C115 | as C113 | invariants for tags, interlevel sets (disjoint sets describe paths) and the walk (shortest paths without repetition, so that the bound on the number of rounds suffices) |
| C116 | `Mesh` as an explicit heap of half-edges; `addVertex`, `addFace`; histories of calls; loops bounded by a parameter; traversal orders of the hash map as parameters | invariant of all histories (`Inv`): half-edges in pairs, cycles of faces, stored edges of vertices; monotonicity in the bound; endless loop by an invariant of a cycle of states |
| C117 | `faces`, `numFaces`, `getVertices` | each cycle of half-edges lists the vertices of its face; stored edges of vertices never change |
| C118 | `link`, `getNeighbours`, `hasEdge`, `getLowerNeighbours`, `getHigherNeighbours` | all half-edges that are met start in the vertex |
| C119 | `numConnectedComponents` | disjoint sets describe the relation generated by the stored edges; for growing histories it equals connectivity by induction over the history and the vertices of a face |
| C120 | `star`, `getFaces` | the star is itself built by a history, so that all other theorems apply to it |
| C121 | `MorseSmaleComplex::contiguousSegments` | invariant of the loop over the link, in terms of disjoint sets |
| C122 | `sphereSampling`, `makeSphere` over the reals; random numbers as a sequence | trigonometric identities; polar coordinates; Lebesgue measure of the set of random numbers that lead to a part of the sphere |
| C123 | `torusRejectionSampling`, `makeTorus` over the reals; random numbers as sequences; number of rounds as a parameter | trigonometric identities; polar coordinates; invariant of the loop; Lebesgue measure of the region under the density |
| C124 | `AlgebraicSphere` over the reals, with its caches; `none` for values that are not finite | completing the square; consistency of caches as an invariant |
| C125 | `Point`: comparison, order, output | induction over the coordinates |
| C126 | `format` for unsigned numbers, exact logarithms | decimal notation by strong induction; lexicographic order of digits by induction |
| C127 | operators of `ContainerOperators.hh`, `allclose`, `Values.hh` | pointwise |
| C128 | `LexicographicTriangulationReader`: both overloads, `isBlockFinished`, `parseBlock` with a bound on the number of rounds; conversion of vertices as a parameter | simulation of the loop along the grammar of texts; counting of brackets in prefixes; monotonicity in the bound; an unchanged state for the endless loop |
| C129 | `PajekReader`: both overloads and `getLabelMap`, with the labels of earlier calls as state; regular expressions as functions; conversions as parameters | simulation of the loop along the grammar of files; both directions for the regular expressions of vertices and edges |
| C130 | `BipartiteAdjacencyMatrixReader`: both overloads, the map of minimum weights as a function, text as in C74 | invariant of the map of minimum weights along the loop; complexes of a list of simplices (`Spec.Collects`); sorting as in C75 |
| C131 | `LinesAndPoints`: the output to a stream, with the representations of numbers as parameters; a missing element of the container is undefined behaviour | induction over the complex; words of lines are unique, empty lines determine the blocks |
| C132 | `FlexSpectrumReader`: both loops, normalisation and the maps as state; conversion of lines to numbers as parameter | loop invariant for vertices and maps; `Spec.Collects`; sorting by descending data |
| C133 | `SparseAdjacencyMatrixReader`: the file system is a map from names to texts, the traversal of the unordered set is a parameter, reads past the end of attributes are undefined; conversions of strings as parameters | text lemmas relate files to lists; invariants of both loops via `Spec.Collects`; sorted complexes with the same data are equal |
| C134 | `GMLReader`: regular expressions as functions on texts, the stack of levels as state, missing levels as undefined behaviour; conversions of strings to numbers as parameters | the specification describes files as lists of blocks; induction over blocks; `Spec.Collects` for the complex |
| C135 | `GMLWriter`: the text as a list of characters, the output operator for data as parameter, numbers of vertices in decimal notation | the text consists of lines that meet the specification of GML files (C134); the round trip follows from the theorems about the reader |
| C136 | `VTKStructuredGridReader`: regular expressions as sequences of fields, the file as list of lines, `at` with an index that is too large as exception; conversions of strings to numbers as parameters | indices and coordinates are inverse to each other; neighbours are exactly the points at distance one; `Spec.Collects` for the complex; induction over the lines after the coordinates |
| C137 | `PLYReader`: the file as list of lines, `std::getline` at the end of the text, the header as state, access to missing columns as exception, access to missing vertices as undefined behaviour; conversions of strings to numbers as parameters | the specification describes headers and lines; induction over the lines of the header, of vertices and of faces with an invariant for the known edges; the maximum follows from C25 |
| C138 | functions of lists of characters; `basename` of the system by its description in POSIX; environment variables as function | the specification decomposes paths and names; the decomposition is unique |
| C139 | `SimplicialComplexReader`: files as function from names to contents, the readers of the individual formats from C77, C129, C134, C136 and C137, HDF5 as parameter, labels as state | for the formats by C138; for labels by an invariant for the loop over the map, with the position of an identifier as injective function; the counterexamples follow from the specification of the individual readers |
| C140 | `TikZ`: the text as list of characters, output of numbers as parameter, options as structure | the specification gives the commands of a picture and their lines; by induction on the complex, with a lemma about commands that are declared before they are used for concatenations |
| C141 | `TangentSpace` over ℝ, with matrices of Mathlib; singular value decomposition and generalised eigenvalue solver as parameters with contracts, nearest neighbours from C61, spheres from C124 | a positive definite form attains its minimum under a quadratic constraint (compactness), and the minimum is the smallest positive eigenvalue of the pencil (a zero of a semidefinite form belongs to its kernel); the counterexamples by polarity with respect to the constraint |
| C142 | `Visitor`: the functor as a triple of state transformers that may throw, called by the loop of the zero-dimensional diagram | the invariant of the loop (C06) extended by the sequence of calls; the calls do not depend on the functor |
| C143 | the functor of `relevant_edges.cc` with its maps and its log, run on the sorted complex | the sequence of calls of C142; the stored sizes are the sizes of the components of the complex of all previous simplices |
| C144 | `clique_communities_to_json.cc` after the file has been read: weights, threshold, expansion, clique graphs, components, text | expansion (C26), weights (C27), clique graphs (C56) and disjoint sets (C15); positions of the expanded complex correspond to cliques; the text by induction along the grammar of JSON |
| C145 | `clique_persistence_diagram.cc` after the file has been read: weights, both expansions, the loop over all k with its functor, the values of all output files, their names | the sequence of calls of C142; the functor knows the members of all current components (invariant); each vertex of a clique graph is the oldest vertex of exactly one community, so that sums over calls are sums over vertices |
| C146 | `HDF5SimpleDataSpaceReader` from the contents of a file (groups, data sets, bytes); a memory type that equals the type of the file means that bytes are copied | the list of simplices without repetitions is calculated explicitly; cells are the sets of positions that fit into a unit square and contain no position above and to the left of another one |
| C147 | `GraphMLReader` from the tree of an XML document; `std::sort` as a parameter, as nodes of the same identifier may end up in any order | the folds over elements are compared with inductive descriptions of documents; ranks of identifiers are numbers of smaller ones, sorted nodes are found at their ranks because their indices are the first natural numbers |
| C148 | `normalize` of step functions over an ordered field | the scalar operations are maps over the intervals (C50), the last element of the set of values is its maximum |
| C149 | `getNodesByLevel`, `nodesToLevel`, and `isHarmonic` of cover trees (C43); `std::sort` is a parameter, the loop for the level has a bound for its rounds | the traversal visits all nodes by descending level; invariant of the insertion into the map; the path of a point is unique; the largest distance is positive if points are distinct, so the loop ends; rebuilding by C43 |
| C150 | all of `topological_distance.cc`: options, names of files, data sets, distances, the parallel loop as a fold over any permutation of its rounds, the output; loading files is a parameter, the regular expression is a function on lists of characters | the numbering of pairs is a bijection (triangular numbers); Hausdorff distances by C37, Wasserstein distances by C36, indicator functions by C50; invariant of the fold over the rounds; the matched names are those of a specification by concatenation |
| C151 | all of `betti_numbers.cc`: the loop over files with the reader of C134 and the persistence diagrams of C51, the regular expression as a function on lists of characters, the map as a sorted list, the output | `C51_betti` in dimension one; without triangles only the empty boundary exists, and the cycles are the sets of edges with even degrees; a vertex always yields a point, so the second diagram has dimension one; induction over the list of files |
| C152 | all of `persistence_diagram_statistics.cc` over real numbers: options, names, the removal of points, the statistics of C66 and C67, the text of the output; the output of numbers is a parameter, 0/0 is `none` | C66 for sums and maxima; the names of files by C138 and C150; induction over the options |
| C153 | all of `make_signature.cc` over an ordered field: options, filtering, normalization, the loops over pairs, the requested capacity in unsigned arithmetic, the output | pairs of a list under permutations and concatenation; values at a position of a sorted list are counted, so that lists with close entries remain close after sorting; stability follows for any matching, by Spec.IsBottleneck |
| C154 | all of `wicked_triangulations.cc`: missing faces, sorting, diagrams, perversities with the counter of combinations modulo the range of `std::size_t`, skeletons, barycentric subdivision (C48), intersection homology (C47), the text of the output; data are of type `bool`, as in the code | the n-th perversity is the n-th number in a mixed radix system; C51, C57 and C47_betti_any_order, transferred from positions to sets of vertices; the strata meet a simplex of the subdivision in at most one vertex; JSON by a grammar |
| C155 | no further code; `calculatePersistenceDiagrams` (C51), `removeDiagonal`, `removeUnpaired` (C20) and `wassersteinDistance` (C36) over an ordered field | two functions without reversed pairs have a common order, hence the same pairing; otherwise, follow the straight line to the first function at which a reversed pair has equal values, where C52 allows to change the order; induction on the number of reversed pairs |
| C17 (persistent components) | no further code | vertices that are oldest in their component at time m, and born until l, are representatives of the classes; C16/C17 relate them to the pairs |
| C156 | all of `function_analysis.cc`: options, reading (C64, C70), complexes of paths, diagrams (C51), closing, scaling, the output as text | runs of consecutive positions are the classes of connected vertices; C17_persistent_components counts them; superlevel sets by order duality; stability from C155 |
| C157–C159 | the functions `vietorisRips`, `vietorisRips1d` and `vietorisRips2d` of the Python module: the checks, access to memory by strides in bytes (a read outside of the array is a distinct outcome), the complex, expansion (C27), sorting, the pairing (C51) | Kruskal's algorithm: an edge destroys a component iff it is not connected by earlier edges (C16, C17), hence the edges form a spanning tree, and for every threshold they connect what is connected by shorter edges; exchange by counting the edges below each threshold gives minimality. Diagrams: C51_persistent_betti, C155; simplices of the largest dimension are never reported |
| C160, C161 | the functions for zero-dimensional diagrams and for arrays of points of the Python module | the algorithm only depends on the order of vertices and on the order of edges, hence vertices may be moved to the front, whatever their weight; then as C157, by order duality for maximum spanning trees. Arrays of points: C28 and C51 |
| C162 | all of `connectivity_matrix_analysis.cc`: options, the adjacency matrix (C75, C76), sorting, diagrams (C51), replacement of infinity, the output as text | a spanning tree as for C157, which holds for every order of simplices; in the lexicographic order the edge between a vertex and the first one precedes all other edges of the vertex; JSON: a text with an opening brace right after a closing one, outside of strings, is not derivable |
| C163 | all of `persistence_diagram_entropies.cc`: loading (C111), entropies (C78, C79), the output as text | lists of files by induction; each line by C78 and C79 |
| C164 | all of `network_analysis.cc`: options, readers (C77, C127–C129), weights of nodes, normalization and inversion by replacement of simplices, expansion (C27), sorting, diagrams (C51), the output as text and as files | replacing all simplices one by one is a map; the sublevel sets of the expanded complex are the sets of cliques, hence diagrams by C51; a diagram of positive dimension has a point on the diagonal before these points are removed (the first simplex of a dimension is paired with its youngest face), hence no diagram equals the last one and separators are where they should be |
| C165 | all of `vietoris_rips.cc`: options, reading of points (C72), distances (C60), the complex (C28), diagrams (C51), normalization, the output as text | the complex is the expansion of a graph, so that the theorems for C164 apply; every vertex creates a component, hence the number of points in dimension zero; the fold of the maximum over all pairs is the square of the diameter |
| C166 | all of `image_analysis.cc`: options, reading of images (C73, C74), sorting, diagrams (C51), the output as text | a general theorem about the diagrams of any complex that is sorted by its data (`level_analysis`); the sublevel sets of the grid are the sets of cells with small values; superlevel sets by order duality; regions by C17 |
| C167 | all of `witness_complex.cc`: options, reading of points (C72), landmarks and complexes (C45), diagrams (C51), the output as text | sublevel sets of the complex are the sets of landmarks with near witnesses, hence diagrams by `level_analysis`; landmarks are chosen by squared distances, which order points like distances; options by induction from the last one |
| C168 | all of `vtk.cc`: options, reading of grids (C136), sorting, diagrams (C51), the output as text | the data of the complex are monotone, hence diagrams by `sorted_levels`; the sublevel sets are those of the grid; superlevel sets by reversing the order |
| C169 | all of `ply.cc`: options, reading of meshes (C137), recalculation of weights (C25), sorting, diagrams (C51), the output as text | the reader sorts the complex, hence diagrams by `ordered_levels`; for superlevel sets, sorting by data yields a filtration only if data are monotone |
| C170 | all of `graph_analysis.cc`: options, reading of edge lists (C77), degrees (C82), expansion (C26), assignment of data (C27), zero weights, sorting, diagrams with or without classes of the highest dimension (C51), names and contents of files | data are maxima of degrees, hence monotone; diagrams by `sorted_flag`, which extends `sorted_levels` to both values of the flag; fewer degrees than vertices imply an access out of bounds for the last vertex |
| C171 | all of `vietoris_rips_eccentricity.cc`: arguments, reading of points (C72), eccentricities (C89) and their transformation, Vietoris–Rips complexes with values (C28), recalculation of weights (C25), star filtrations (C21), diagrams (C51), the output as text | after recalculation, the data of a simplex is the least or largest value of its vertices (induction over the dimension); hence diagrams by `ordered_levels`, for upper-star filtrations with the reversed order |
| C172 | `standardRectangular` for arbitrary columns (the entries need not be indices of columns). | The loop is simulated by the loop of the standard algorithm for the matrix in which skipped columns are replaced by empty ones; the invariant of the standard algorithm gives the pairs. |
| C173 | all of `create_random_graph.cc`: options, generators (C88), the GML writer | by C88 and the round trip of the GML writer and the GML reader (C135) |
| C174 | all of `1D.cc`: reading of functions and calculation of the diagram (C65) | by C65 |
| C175 | all of `create_persistence_diagrams.cc`: options, random diagrams, samples of boxes, spheres and tori (C122, C123), Vietoris–Rips complexes (C28), diagrams (C51), names and contents of files | invariant of the loop that sets points; diagrams as for C165; there is a diagram in dimension one if and only if there is a triangle; names contain numbers of the same width (C126) |
| C176 | all of `rips_distributions.cc`: options, reading of points (C72), distances (C60), neighbours (C61), Kahan summation (C49), the output as text | the lists are rewritten as sums over sets of neighbours; a point is its own neighbour |
| C177 | all of `persistence_indicator_function.cc`: options, reading of diagrams (C111), indicator functions (C40), sums of functions (C50), names and contents of files; the operators of step functions for streams | by C40; induction over the intervals for reading; induction over the files |
| C178 | all of `point_cloud_data_descriptors.cc`: options, reading of points (C72), descriptors (C89-C91), transformations of their values, Vietoris-Rips complexes (C28), the star filtration, diagrams (C11), JSON (C112) | by the theorems about the parts; the transformations are characterised by least and greatest values |
| C179 | all of `sparse_adjacency_matrices.cc`: options, the reader (C133), closeness centralities by the algorithm of Floyd and Warshall (C82), degrees, weights, sorting, diagrams (C11), names and contents of files, the writer for GML (C135) | by the theorems about the parts; the weights of nodes never exceed those of their edges, so that the sorted graph is a filtration; the superlevel case is refuted by a path with three nodes |
| C180 | all of `persistent_spines.cc`: options, reading of points (C72), Čech complexes (C62), both algorithms for spines (C33), the writer for TikZ (C140), the output operators for simplices and complexes | by the theorems about the parts; points with d coordinates are a subtype of lists, for which the contract of Miniball is that of C62 |
| C181 | all of `piecewise_linear_function_smoothing.cc`: options, files with points, the mean (C42), its replicates (C87), the deviations, the quantile, the output operator of piecewise linear functions; random numbers are a parameter | the mean by induction over the functions, with the sums of C42; the deviation is the maximum of a function without changes of sign; the quantile by counting in sorted lists |
| C182 | all of `ephemeral.cc`: options, matrices (C75, C76), expansion (C26, C27), sorting, diagrams (C51), the collection that merges diagrams, the names and contents of files; assertions are active | the dimensions of diagrams are an initial segment of the natural numbers, hence no assertion fails; the points count persistent classes of cliques by C51; options and loops by induction |
| C183 | all of `persistence_indicator_function_confidence_sets.cc`: options, both kinds of files, indicator functions (C40), sums of step functions (C50), replicates (C87), the quantile and the output file | the deviation of a replicate is bounded if and only if all values of a difference are; counting in sorted lists; functions with a common interval are closed under all operations; options and loops by induction |
| C184 | all of `local_dimensionality.cc`: options, reading of points (C72), the estimators (C102–C106), smoothing (C93) also for values that are not numbers, output | estimators depend on distances between the points only; per-point theorems C102–C106; smoothing by induction on steps; options by induction |
| C185 | all of `multi_scale_skeleton.cc`: reading of points (C72), the skeleton for beta = 1 (C63), mean lengths of edges, the heat kernel (C97), both outputs | induction over the simplices for degrees and sums of lengths; a bijection between edges at a vertex and its neighbours; the Laplacian matrix (C96) as a flow along edges; the nearest point is always a neighbour |
| C186 | all of `mean_curvature.cc`: arguments, reading of points (C72), curvatures (C141), output | from C141 for the positions of the points in the file; output by comparison of lists |
| C187 | all of `spectral_analysis.cc`: options, reading of spectra (C132), zero-dimensional persistence (C16, C17), the three modes | from C16 and C17 for the path of the samples; the elder rule (C17) yields prominences, as joined vertices of a path lie in a run of samples; an invariant for the map of the transformed spectrum |
| C188 | all of `process_image_patches.cc`: reading of point clouds (C72), logarithms, contrast, filter, normalisation, output | the summands of the contrast by a double sum over rows and columns; the position of the threshold in the sorted contrasts by counting; the truncated sum of squares as an inductive relation; an equivalence for the whole program |
| C189 | the generator and both filtrations of `random_stratified_graphs.cc` | vertices and edges as closed enumerations by induction on the strata, then the lemma about insertion of ranges; filtrations by membership in mapped and filtered lists and the properties of sorting by data |
| C190 | `applyFiltration` and `assignVertexWeights` of `stratified_graph_analysis.cc`, and their composition in `main` | the map of weights as the first edge that contains a vertex; extreme weights by induction over the loop; the first element of a sorted list as extreme element; properties of sorting by data; comparisons by case distinction |
| C191 | `normalizeSimplicialComplex` of `stratified_graph_analysis.cc` | the normalisation as an explicit linear function; extreme elements of lists; C85 for mean and variance of linear functions |
| C192 | `getMinimumAbsoluteWeight` and the computation of diagrams in `main` of `stratified_graph_analysis.cc`, for the standard filtration | C190 for the filtration, C51 for the pipeline, the spanning tree of the pairing of dimension zero, which is extreme because the filtration is sorted by weights; extreme elements of lists by induction |
| C193 | `standardizeValues`, the strata from values of vertices and the calculation of diagrams in `persistent_intersection_homology.cc` | C47 for intersection homology; the predicates by case distinction over the vertices of a simplex; the allowable simplices by counting singular vertices; C85 for mean and variance |
| C194 | cleaning of diagrams and classes of equal diagrams in `interlevel_set_persistence_hierarchy.cc` | sorted permutations are equal; the loops as a sequence of calls of the disjoint sets, C14 for roots and members; connected indices have the same points, and conversely |

## What is modelled

Paths are relative to `include/aleph`.  "-" means that everything with observable
effect is modelled, except output operators.

| file | modelled | not modelled |
|------|----------|--------------|
| `topology/representations/Vector.hh`, `List.hh`, `Set.hh` | all operations | - |
| `topology/representations/Heap.hh` | no | unusable: `getMaximumIndex` is marked `const` but modifies a column, so it cannot be instantiated |
| `topology/BoundaryMatrix.hh` | construction, dualize, comparison, columns, `load` (C110) | `operator<<` |
| `persistentHomology/algorithms/Standard.hh`, `Twist.hh` | all | progress timer output |
| `persistentHomology/PersistencePairing.hh` | all functions used by the calculation | `operator<<`, removal helpers of the container |
| `persistentHomology/Calculation.hh` | all overloads for complexes | the overload for functions on data (`calculatePersistenceDiagrams(Container)`) through `io/Function.hh` |
| `persistentHomology/ConnectedComponents.hh` | zero-dimensional diagram and pairing | the traits for the pairing (functors passed as callbacks: C142) |
| `persistentHomology/EulerCharacteristic.hh` | both functions | `persistentEulerCharacteristic` (does not compile) |
| `persistentHomology/PhiPersistence.hh` | all | debug output |
| `persistenceDiagrams/Calculation.hh` | all | - |
| `persistenceDiagrams/PersistenceDiagram.hh` | container | - |
| `persistenceDiagrams/PersistenceIndicatorFunction.hh` | all | floating point `nextafter` is a parameter |
| `persistenceDiagrams/distances/*` | all | `std::pow` is a parameter |
| `topology/Simplex.hh`, `topology/SimplicialComplex.hh` | all | iterators as objects, output |
| `topology/filtrations/Data.hh`, `LowerStar.hh`, `UpperStar.hh` | all | - |
| `topology/Conversions.hh`, `ConnectedComponents.hh`, `UnionFind.hh` | all | - |
| `topology/MaximalCliques.hh`, `CliqueGraph.hh`, `FloydWarshall.hh`, `QuotientSpaces.hh`, `Spine.hh`, `Skeleton.hh`, `Filter.hh`, `BarycentricSubdivision.hh` | all | - |
| `topology/Intersections.hh` | `sizeOfIntersection`, `intersect` of simplices, `lastLexicographicalIntersection` | the rest |
| `geometry/RipsExpander.hh`, `RipsExpanderTopDown.hh`, `RipsSkeleton.hh`, `VietorisRipsComplex.hh` | all | nearest neighbour structures are their specification |
| `geometry/DowkerComplex.hh`, `WitnessComplex.hh` | all | Boost shortest paths are their contract |
| `geometry/CoverTree.hh` | insertion, validity checks, levels, `isHarmonic` | `print` and `checkDistance`, which only write text |
| `geometry/distances/Infinity.hh` | for two-dimensional points | - |
| `math/Combinations.hh` | `for_each_combination` and what it calls | the permutation and circular variants |
| `math/KahanSummation.hh`, `SparseMatrix.hh`, `SymmetricMatrix.hh`, `PiecewiseLinearFunction.hh` | all | output |
| `math/StepFunction.hh` | all | output |
| `geometry/distances/{Manhattan,Hamming,Euclidean,Traits,Wrapper}.hh` | all functors | names of distances |
| `geometry/BruteForce.hh` | `radiusSearch`, `neighbourSearch` | - |
| `geometry/CechComplex.hh` | `buildCechComplex` | `Miniball` (external) by its contract |
| `geometry/BetaSkeleton.hh`, `utilities/ContainerOperators.hh` | `buildBetaSkeletonNaive`, lune, ball, scalar multiple, sum | `allclose`, containers of integers |
| `topology/io/Function.hh` | `loadFunction` (both), `loadFunctions` | parsing of files and lines |
| `persistenceDiagrams/Norms.hh`, `persistenceDiagrams/Extraction.hh` | all functions | floating point rounding |
| `persistenceDiagrams/kernels/KernelEmbedding.hh`, `persistenceDiagrams/kernels/MultiScaleKernel.hh` | all functions | rounding; smoothing parameter zero |
| `utilities/String.hh` | `ltrim`, `rtrim`, `trim`, `split` (for sets of characters), `splitByWhitespace`, `countTokens` | `convert`, general regular expressions |
| `containers/PointCloud.hh` | the class, `load(stream)`, `operator<<` | `load(filename)` for files that cannot be opened, `data`, memory management |
| `topology/io/Matrix.hh` | `MatrixReader` for streams | files that cannot be opened |
| `topology/io/AdjacencyMatrix.hh` | `AdjacencyMatrixReader` for streams | files that cannot be opened; NaN (and `setIgnoreNaNs`) |
| `topology/io/EdgeLists.hh` | `EdgeListReader` for streams | files that cannot be opened; separators that are not a set of characters; failures of `convert` |
| `persistenceDiagrams/Entropy.hh` | all functions, with brute-force neighbour search | FLANN; rounding (in particular `x / offset` for the largest coordinate, whose rounded value decides between the last cell and memory outside the grid) |
| `topology/CombinatorialCurvature.hh` | all functions | rounding of `double`; widths of integers are a parameter |
| `topology/filtrations/Degree.hh` | all functions | overflow of 32-bit counters |
| `persistenceDiagrams/Envelope.hh` | all functions | NaN and rounding |
| `math/Statistics.hh` | all functions | NaN values in the input, rounding |
| `math/Quantiles.hh` | `median` | integers (the division truncates) |
| `math/Bootstrap.hh` | all functions | distribution of the random numbers (the theorems hold for all sequences), rounding, quantiles of Student's distribution (parameter) |
| `topology/RandomGraph.hh` | all functions | distribution of the random numbers (the theorems hold for all sequences); overflow of weights |
| `containers/DataDescriptors.hh` | all functions, with brute-force neighbour search | FLANN; rounding |
| `containers/MeanShift.hh` | all functions, with brute-force neighbour search | FLANN; rounding |
| `containers/FractalDimension.hh` | all functions | rounding; overflow of the 32-bit number of pairs |
| `geometry/HeatKernel.hh` | all functions and the class `HeatKernel` | Eigen (contracts for eigensystems and inverses); rounding |
| `topology/Partitions.hh` | `bisect` | Eigen; rounding |
| `math/KernelDensityEstimator.hh` | all kernels, univariate and multivariate evaluation | rounding; integrals of the Epanechnikov kernel in several dimensions |
| `containers/DimensionalityEstimators.hh` | all functions, with brute-force neighbour search | FLANN; rounding; the unused minimum spanning tree |
| `math/PrincipalComponentAnalysis.hh` | `operator()` | Eigen (contract for decompositions); rounding |
| `topology/Intersections.hh` | all functions | order of `std::unordered_set` |
| `persistenceDiagrams/Mean.hh` | all functions | data races on unused variables; rounding; distribution of the random index |
| `persistenceDiagrams/io/Raw.hh` | `load` | `utilities::convert` (parameter); the file system |
| `persistenceDiagrams/io/JSON.hh` | `writeJSON`, `readJSON` | RapidJSON's parser (reading starts with the value of the document); stream failures |
| `persistentHomology/ExtendedPersistenceHierarchy.hh` | all functions | Boost's breadth-first search (parameter), the bimap between vertices and descriptors |
| `topology/Mesh.hh` | all functions | memory management by shared and weak pointers; `assert` counts as undefined behaviour |
| `topology/MorseSmaleComplex.hh` | `contiguousSegments` | `operator()`, which only prints the results to the standard error stream |
| `geometry/SphereSampling.hh` | all functions | random number generators (sequence of numbers), rounding |
| `geometry/TorusSampling.hh` | all functions | random number generators (sequences of numbers), rounding |
| `math/AlgebraicSphere.hh` | all functions | rounding; the difference between infinite values and values that are not a number |
| `geometry/Point.hh` | `==`, `!=`, `<`, `<<` | iterators |
| `utilities/Format.hh` | `format` for unsigned numbers | rounding of logarithms, negative numbers |
| `utilities/ContainerOperators.hh` | all functions | rounding |
| `utilities/Values.hh` | all functions | values that are not a number |
| `topology/io/LexicographicTriangulation.hh` | all functions | conversion of texts to vertices (parameter with the contract that numbers in decimal notation are read) |
| `topology/io/Pajek.hh` | all functions | conversion of texts to numbers and weights (parameters; digits are read as the number that they denote), the engine for regular expressions (functions with the same groups) |
| `topology/io/BipartiteAdjacencyMatrix.hh` | all functions | conversion of words to numbers (parameter), values that are not a number |
| `topology/io/LinesAndPoints.hh` | all functions | opening of files, formatting of numbers (parameters) |
| `topology/io/FlexSpectrum.hh` | all functions | conversion of lines to numbers (parameter), division by zero (excluded by hypotheses), rounding |
| `topology/io/SparseAdjacencyMatrix.hh` | all functions | conversions of strings to numbers (parameters), regular expressions as separators (a single character instead) |
| `topology/io/GML.hh` | all functions of `GMLReader` | conversion of texts to numbers (parameters), overflow of numbers to the type of vertices |
| `topology/io/GML.hh` | all functions of `GMLWriter` | opening of files, formatting of data (parameter) |
| `topology/io/VTK.hh` | all functions | conversion of texts to numbers (parameters), sizes of types other than on 64-bit systems, overflow of products of dimensions |
| `topology/io/PLY.hh` | `PLYReader::operator()`, `parseASCII`, `parseBinary`, `setDataProperty` | conversion of texts to numbers (parameters), coordinates (they cannot be accessed), the bytes of binary files, as they are not used |
| `utilities/Filesystem.hh` | `basename`, `stem`, `extension`, `tempDirectory` | queries of the file system (`fileType`, `exists` etc.) |
| `topology/io/SimplicialComplexReader.hh` | all functions | the reader for HDF5 files (parameter) |
| `topology/io/TikZ.hh` | all functions | opening of files |
| `geometry/TangentSpace.hh` | all functions but `fitSpheres` | `fitSpheres` (never called), the search by FLANN |
| `src/tools/relevant_edges.cc` | the functor, the loop, the log | reading files, the final output of all edges to files |
| `src/tools/clique_communities_to_json.cc` | all but the input | reading files and labels, the command line, messages |
| `src/tools/clique_persistence_diagram.cc` | all but input and text of numbers | reading files and labels, the command line, messages, rounding |
| `topology/io/HDF5.hh` | all functions, for builds with HDF5 | the HDF5 library; conversions between `double`, `float` and the data type |
| `topology/io/GraphML.hh` | all functions, for builds with TinyXML2 | TinyXML2; `getID`, which is not used; conversions to narrower vertex types |
| `src/tools/topological_distance.cc` | all functions | messages on standard error; the loading of files (C111, C112) |
| `src/tools/betti_numbers.cc` | all functions | messages on standard error; the type of vertices (`unsigned short`) is part of the parameter `number` |
| `src/tools/persistence_diagram_statistics.cc` | all functions | messages on standard error; infinite values |
| `src/tools/make_signature.cc` | all functions | messages on standard error; infinite values; lack of memory |
| `src/tools/wicked_triangulations.cc` | all functions | messages on standard error, output that precedes an exception, the cache (which has no effect on the output), the width of vertices (`unsigned short`) and of Betti numbers |
| `src/tools/function_analysis.cc` | all functions | messages on standard error; infinite values and NaN; output that precedes an exception |
| `bindings/python/aleph.cc` | `vietorisRips`, `vietorisRips1d`, `vietorisRips2d`, `calculatePersistenceDiagrams`, `calculateZeroDimensionalPersistenceDiagramAndPairing`, `calculateZeroDimensionalPersistenceDiagramOfMatrix` | the wrappers of classes, conversions of types by pybind11, all other functions |
| `src/tools/connectivity_matrix_analysis.cc` | all functions | messages on standard error; the reduction of vertices to 16 bits; NaN; output that precedes an exception |
| `src/tools/persistence_diagram_entropies.cc` | all functions | messages on standard error; unpaired points |
| `examples/network_analysis.cc` | all functions | messages on standard error; weights that are infinite or undefined; output files that cannot be opened |
| `examples/vietoris_rips.cc` | all functions (without FLANN) | messages on standard error; infinite coordinates |
| `examples/image_analysis.cc` | all functions | messages on standard error; output that precedes an exception |
| `examples/witness_complex.cc` | all functions | messages on standard error; infinite coordinates; rounding of the number of landmarks |
| `examples/vtk.cc` | all functions | messages on standard error |
| `examples/ply.cc` | all functions | messages and statistics on standard error |
| `src/tools/graph_analysis.cc` | all functions | messages on standard error, output files that cannot be opened |
| `examples/vietoris_rips_eccentricity.cc` | all functions | messages on standard error; rounding; infinite coordinates |
| `examples/create_random_graph.cc` | all functions | messages on standard error; overflow of weights |
| `examples/1D.cc` | all functions | the text of exceptions |
| `examples/create_persistence_diagrams.cc` | all functions | messages on standard error; rounding; output files that cannot be opened; bounds of the distributions of random numbers |
| `src/tools/rips_distributions.cc` | all functions | messages on standard error; rounding; FLANN |
| `src/tools/persistence_indicator_function.cc` | all functions | messages on standard error (among them the sample variance); rounding; output files that cannot be opened |
| `src/tools/point_cloud_data_descriptors.cc` | all functions | messages on standard error; rounding; FLANN; a bandwidth of zero is modelled as values that are not numbers |
| `src/tools/sparse_adjacency_matrices.cc` | all functions | messages on standard error; rounding; output files that cannot be opened; values of simplices that equal the largest finite number |
| `src/tools/persistent_spines.cc` | all functions | messages on standard error; rounding; the external library Miniball (by contract) |
| `src/tools/piecewise_linear_function_smoothing.cc` | all functions | messages on standard error; rounding; infinite or undefined numbers |
| `src/tools/ephemeral.cc` | all functions | messages on standard error; rounding; undefined numbers; vertices above 65535 |
| `src/tools/persistence_indicator_function_confidence_sets.cc` | all functions | messages on standard error; rounding; undefined numbers |
| `src/tools/local_dimensionality.cc` | all functions | messages on standard error; rounding; FLANN; the number 2^32 - 1 of neighbours |
| `src/tools/multi_scale_skeleton.cc` | all functions | messages on standard error; rounding; failure to create `/tmp/HKS.txt` |
| `src/tools/mean_curvature.cc` | all functions | messages on standard error; rounding; FLANN |
| `src/tools/spectral_analysis.cc` | all functions | messages on standard error; rounding |
| `src/tools/process_image_patches.cc` | all functions | messages on standard error; rounding |
| `src/tools/random_stratified_graphs.cc` | `makeRandomStratifiedGraph`, `makeFiltration`, `makeLowerFiltration`, `makeUpperFiltration` | `merge`, `main`; overflow of vertex indices; rounding |
| `src/tools/stratified_graph_analysis.cc` | `applyFiltration`, `assignVertexWeights`, `normalizeSimplicialComplex`, `getMinimumAbsoluteWeight`, order of the filtration and computation of diagrams in `main` | rest of `main`, diagrams of the absolute filtration, reading of files, `merge`; `makeRandomStratifiedGraph` is the function of C189; rounding |
| `src/tools/persistent_intersection_homology.cc` | `standardizeValues`, strata from values of vertices, diagrams of intersection homology | options, reading of files, the Vietoris--Rips complex (see the properties of it), the canonical stratification by skeletons, output; rounding |
| `src/tools/interlevel_set_persistence_hierarchy.cc` | cleaning of diagrams, classes of equal diagrams | options, reading of files, the hierarchy (see the properties of `ExtendedPersistenceHierarchy`), output of vertices and edges |

Not modelled at all: `geometry/{FLANN,NearestNeighbours}.hh`, `utilities/*` (except `ContainerOperators.hh`, `Filesystem.hh`, `Format.hh`, `String.hh`, `UnorderedSetOperations.hh` and `Values.hh`), the command line tools in `src/tools` (except `relevant_edges.cc`, `clique_communities_to_json.cc`, `clique_persistence_diagram.cc`, `topological_distance.cc`, `betti_numbers.cc`, `persistence_diagram_statistics.cc`, `make_signature.cc`, `wicked_triangulations.cc`, `function_analysis.cc`, `connectivity_matrix_analysis.cc`, `graph_analysis.cc`, `rips_distributions.cc`, `persistence_indicator_function.cc`, `point_cloud_data_descriptors.cc`, `sparse_adjacency_matrices.cc`, `persistent_spines.cc`, `piecewise_linear_function_smoothing.cc`, `ephemeral.cc`, `persistence_indicator_function_confidence_sets.cc`, `local_dimensionality.cc`, `multi_scale_skeleton.cc`, `mean_curvature.cc`, `spectral_analysis.cc`, `process_image_patches.cc` and `persistence_diagram_entropies.cc`), and most of the Python bindings.

## Disagreements between code and expectation

Each is proved about the model by a theorem named in `MANIFEST.json` unless marked "read".

* `eulerCharacteristic` omits the top dimension (C34).  `persistentEulerCharacteristic` does not compile when instantiated (read).
* `createMissingFaces`: a missing face shared by several simplices gets the data of the first (C24).
* `makeBoundaryMatrix` maps missing faces to index 0 (C11); a maximum index of 0 means "no limit" (read).
* `makePersistenceDiagram(pairing, values)` throws if there is an unpaired creator (C12).
* `UnionFind::merge` is `noexcept` and terminates the program on unknown vertices (C13).
* `RipsExpander`: the output is not in filtration order in general (C26); `assignMaximumWeight` clamps at zero for negative weights and `assignData` reads past the end if data is missing (C27).
* Maximal cliques and `floydWarshall` throw for edges whose end points are not in the complex (C29, C31).
* `SymmetricMatrix<T, unsigned short>`: the size is truncated for n >= 362 (C41).  `SymmetricMatrix(0).empty()` is false (read).
* `Simplex<T,T>(u, data)` selects the range constructor (read).
* Cone, suspension and barycentric subdivision: the new vertex wraps around at the maximum of the type (read); the model has unbounded vertices.
* `BarycentricSubdivision`: the functor receives the number of vertices instead of the dimension, original vertices are not scaled, and a complex without vertices yields the empty complex (C48).
* `Perversity::operator()(0)` and `PerversityGM` out of range are undefined (read); `PerversityGM` does not enforce p(2) = 0; `calculateIntersectionHomology` throws for an empty stratum (C47).
* `nearestNeighbourDistance` with one empty diagram adds up `numeric_limits::max()` (C58); `sumOfMinimumDistances` multiplies with `DataType(0.5)`, which is 0 for integral types (read).
* `StepFunction`: negative values at shared end points are ignored, overlapping intervals are dropped by `add`, `operator+=` is wrong in gaps and for dips (C50).  `IndicatorFunction::operator/=` calls itself for ever (read).
* `persistenceIndicatorFunction`: undefined for a smallest diagonal point that is not positive, for coordinates that are successors of each other, and for points on both sides of the diagonal (C40).
* `PiecewiseLinearFunction`: the sum is pointwise only on the common domain; `==` identifies functions with different domains; `abs` and `integral` of sums are wrong if the sign changes inside a segment (C42).  `operator/` is `noexcept` but throws (read).
* `bottleneckDistance` builds the wrong graph and is undefined for at most one point against the empty diagram (C38).
* `WitnessComplex`: nu larger than the number of landmarks is undefined; `generateMaxMinLandmarks` with n = 0 returns one landmark (C45).
* `CoverTree`: level queries on an empty tree dereference a null pointer (read).
* `PersistenceDiagram::operator==` ignores the dimension (C39).
* `Euclidean.hh:97-100` advances the wrong iterator, so that the loop over groups of four coordinates is never entered and the bound `worstDistance` is ignored (C60_values); the value is right.
* `BruteForce::neighbourSearch` has undefined behaviour if more neighbours are requested than there are points (C61_too_many).
* `buildCechComplex` squares the radius, so that a negative radius acts like its absolute value (C62_cech).
* `buildBetaSkeletonNaive` uses closed lunes: points on the boundary, e.g. the corners of a rectangle, block an edge (example after C63_antitone). For `beta < 1` the lune is not the one of the literature (which uses larger discs).
* `calculatePersistenceDiagram(boundaryMatrix, functionValues)` (`persistentHomology/Calculation.hh:197-206`) throws `std::out_of_range` for every function with at least two values, because the unpaired global minimum is looked up with `functionValues.at(max)` (C65_throws); for one value it returns an empty diagram (C65_single_value). The example program `examples/1D.cc` is affected.
* `loadFunction(filename, matrix, values)` calls `clearColumn`, which does not reset the dimension of a column: loading into a matrix that was used before leaves wrong dimensions (C64_stale_dimensions).
* `pseudoMetric` (`KernelEmbedding.hh:130-135`) uses `linearKernel(D, E, w, k)` for all three terms and is always zero; therefore `gaussianKernel` is always one (C68_pseudo_metric_wrong).
* `multiScaleKernel` divides the squared distances by `8*pi` instead of `8*sigma`, so that `sigma` only scales the result (C69_sigma).
* `containers::load` counts line feeds instead of lines: a file whose last line is not terminated is rejected with `Invalid index`, or, with one line only, silently gives an empty point cloud (C72_unterminated).
* `MatrixReader` documents empty lines and comments but rejects texts that contain them (C74_empty_line, C74_comment).
* `AdjacencyMatrixReader` documents a filtration order but with `AssignGlobalMaximum` (and with `AssignZero` and negative weights) edges precede their vertices (C75_graph_partial, C75_maximum_wrong).
* `AdjacencyMatrixReader` silently leaves the complex unchanged if the text starts with a comment, although comments are documented (C76_comment).
* `EdgeListReader` keeps its labels between calls but restarts their numbers at zero, so that the second file read with the same reader identifies different vertices (C77_reuse_wrong). It decides by the first field only whether a line has numbers or labels; numbers and labels in the same file are mixed up.
* `persistentEntropy` (`Entropy.hh:153-186`) uses `std::log2` instead of the function `detail::log2` of the same file, so that a single point on the diagonal makes the result NaN (C78_diagonal_wrong).
* `gridEntropy` (`Entropy.hh:270-324`) transforms the coordinates twice: the rotation in the second step undoes the change of coordinates of `makePointCloud`, and the grid is aligned with the axes of the diagram, contrary to the comment (C79_grid). If all creation or all destruction values are equal, it converts NaN to `unsigned`; with zero subdivisions it writes outside the grid (C79_grid_degenerate).
* `nearestNeighbourAreaEntropy` is undefined for a single point and NaN if each point coincides with another one (C79_nearest_neighbours).
* `curvature` (`CombinatorialCurvature.hh`) counts a simplex as its own parallel neighbour if it has no coface, so that the edges of every graph get the value 3 - deg(u) - deg(v) instead of 4 - deg(u) - deg(v), and isolated vertices get one instead of zero (C80_correct_iff, C80_graph); the values are unsigned and wrap around.
* The weighted `curvature` takes the absolute value of the sum over all parallel neighbours instead of the sum of the absolute values in Forman's definition (C81_wrong); the results agree in the top dimension and for unit weights.
* `degrees` (`Degree.hh:34-53`) omits isolated vertices, contrary to its documentation, so that the result cannot be matched with `vertices()` (C82_degrees_iff).
* `angleDefectCurvature` subtracts two from the unsigned dimension: the result for graphs is silently empty (C83_defects).
* `Envelope::operator()` (`Envelope.hh:64-72`) advances `next` to the end of the vector and compares `next->x()` without testing for the end: for every non-empty diagram the program reads memory behind the end (C84_overrun), and the value at the largest coordinate depends on its contents (C84_arbitrary).
* `sampleSkewness` (`Statistics.hh`) lacks `return` in the branch for empty ranges; the following computation yields NaN nevertheless (C85_shape).
* `studentConfidenceInterval` (`Bootstrap.hh:212-229`) uses the quantiles of `alpha` and `1 - alpha`, so that its level is `1 - 2 alpha`, whereas the other intervals have level `1 - alpha` (C87_student_wrong).
* `Bootstrap::index` subtracts one from an unsigned zero if `alpha` is zero; the confidence intervals at level one end in an exception (C87_percentile_none). `standardError` is zero without replicates and NaN for a single one (C87_standard_error).
* `generateWeightedRandomGraph` (`RandomGraph.hh:54-88`) does not terminate if its probability is one (C88_divergence).
* `eccentricities` of order zero dereferences the end of an empty range for a single point (C89_eccentricities).
* `estimateDensityTruncatedGaussian` (`DataDescriptors.hh:119`) divides the squared distance by twice the bandwidth instead of twice its square, so that the estimate depends on the unit of length (C90_iff); its documentation says that points closer than the bandwidth are not used, the program does the opposite.
* `estimateDensityDistanceToMeasure` and `meanShiftSmoothing` run past the end of the array of neighbours if there are too few points (C91_density, C93_too_many).
* `HeatKernel::determinant` (`HeatKernel.hh:348-356`) multiplies into a variable that starts with zero: the result is always zero (C97_trace).
* `HeatKernel::operator()( T )` (`HeatKernel.hh:243-263`) adds a matrix with one entry to a vector of size zero: the assertion of Eigen fails for every non-empty complex (C97_all_partial).
* `pinvWeightedLaplacianMatrix` (`HeatKernel.hh:151`) evaluates `1/ n` with integers, i.e. 0 for all n ≥ 2, and then inverts the singular Laplacian matrix (C98_pseudoinverse_partial).
* The flag `_skip` of `HeatKernel` is false whenever the constructor runs, so that no eigenvalue is ever skipped; setting it later makes `logarithmicSamplingInterval` divide by the first eigenvalue, zero. A single sample divides zero by zero (C100_sampling_partial).
* The Gaussian kernel of `KernelDensityEstimator.hh` uses the constant of one dimension for vectors, so that the density of d-dimensional data does not integrate to one unless d = 1 (C101_multivariate_partial). The norm `norms::Euclidean` accumulates in the type of the vector and cannot be instantiated for containers (found by reading).
* `estimateLocalDimensionalityNearestNeighbours( container, kMin, kMax )` (`DimensionalityEstimators.hh:133-166`) never uses the mean for `kMax` neighbours: all estimates are undefined for `kMax ≤ kMin + 1` (C103_regression_partial, C103_unused).
* The estimator based on minimum spanning trees (`DimensionalityEstimators.hh:285-340`) builds the tree and returns an empty vector.
* `PrincipalComponentAnalysis` divides by the root of the number of columns instead of the number of rows; singular values are no standard deviations (C105_components_partial).
* `estimateLocalDimensionalityPCA` never reports the full dimension of the ambient space, and returns fewer estimates than points (none) for one-dimensional points or `k = 0` (C106_principal).
* `topology::intersect` terminates the program for the empty simplex, because `dimension()` throws inside a function that is declared `noexcept` (C107_empty).
* `topology::intersectWithConstrainedDimension` looks only at simplices that have exactly the dimension of its argument, and thus misses intersections with maximal simplices of lower dimension (C108_missed).
* `mean` of persistence diagrams raises an exception for all diagrams of dimension other than zero, because the candidate `Z` has the default dimension (C109_dimension).
* `mean` of persistence diagrams does not end in exact arithmetic for some diagrams: pairings are compared by exact equality of their costs, and the projection of the previous candidate, instead of the projection of the mean of the partners, enters the next candidate (C109_divergence).  With floating-point numbers it ends only once the costs stop changing.
* `mean` of persistence diagrams never has more points than the diagram chosen at random (C109_mean_partial); an empty choice yields an empty mean for every collection.
* The parallel loops of `mean` read `pairings.back()` while another thread may write it (`Mean.hh:206`, `Mean.hh:275`); the value is not used otherwise.
* `BoundaryMatrix::load` skips indented comments when it counts columns but tries to read them afterwards, so that files with indented comments raise an exception (C110_indented_comment); a file that cannot be opened yields an empty matrix (C110_missing_file); indices are not compared with the number of columns, so that `dualize` of a loaded matrix may write out of bounds (C110_unchecked_index).
* `io::load` for persistence diagrams raises an exception for lines of whitespace, though empty lines are ignored (C111_blank_line), and turns tokens that are no numbers into zero without an error, against its documentation (found by reading `utilities::convert`).
* `writeJSON` does not escape names, keys and values: quotes in names add members to the object (C112_injection).  A key `size` makes the output unreadable (C112_key).  The output of one call is not a valid input of `readJSON`, which expects an array `diagrams` (C112_single).  Coordinates are printed with the precision of the stream (six digits by default), so that the round trip requires an exact representation.
* The pairing returned by `ExtendedPersistenceHierarchy` contains positions of the subcomplex of vertices and edges, not positions of the given complex (C113_positions); its edges consist of vertices, while the documentation announces indices in the original simplicial complex.
* `Mesh::addVertex` with a default ID uses `max(size, largestID)`, which is in use after an explicit ID that is not smaller than the size: an exception is thrown although IDs are free (C116_default_partial).
* `Mesh::addFace` with an unknown vertex throws an exception in the middle and leaves half-edges without targets behind; a later call of `link` dereferences a null pointer (C116_exception_debris).
* `Mesh::addFace` never returns for the second of the triangles `0 1 2` and `3 4 2`: the loop along the boundary runs around the first triangle forever (C116_hang).
* `Mesh::faces` and `Mesh::numFaces` look at one edge per vertex only: of the triangles `0 1 2` and `0 2 3` only the first is reported (C117_missing), never more faces than vertices are reported (C117_faces_partial); for the eight triangles in the test of the project, four faces are reported.  All three queries `faces`, `numFaces` and `numConnectedComponents` dereference a null pointer for meshes with isolated vertices (C117_returns, C119_components_partial).
* `Mesh::link` and `Mesh::hasEdge` miss neighbours or dereference a null pointer, depending on the order of faces: for the triangles `0 1 2` and `1 0 3` the edge between 0 and 3 is not found, and the links of 1 and 3 are not defined (C118_missing).
* `Mesh::numConnectedComponents` follows one edge per vertex and reports two components for a triangle and a quadrilateral that share an edge (C119_overestimated).
* `Mesh::star` is empty for vertices whose stored edge is on the boundary (C120_missing).
* `MorseSmaleComplex` increments the end of an empty range for every vertex without lower or without upper link, in particular for each strict extremum (C121_extremum); neighbours with equal data count in both parts of the link.
* `AlgebraicSphere::centre` returns `u / (2 s)` instead of `-u / (2 s)`: for `-2 x + x²`, with the zeros 0 and 2, the reported centre is -1 (C124_wrong_centre).
* `Point::operator==` compares as many coordinates as the first point has: it ignores further coordinates of the second point, or reads memory after its end (C125_dimensions).
* `format` with a maximum of zero converts an infinite number to an integer (C126_zero).
* `operator*` for vectors converts the scalar to the type of the elements before the multiplication, so that half of a vector of integers is zero (C127_truncation).
* `LexicographicTriangulationReader` never returns for lists with characters between simplices that are neither commas nor whitespace, such as `x=[1,2]` (C128_hang).
* `LexicographicTriangulationReader` reports empty complexes for lines without equals sign outside of blocks (C128_stray), and two empty complexes instead of a block if there is a line break after the name (C128_split_name); an unfinished block at the end of a file is ignored silently (C128_unfinished); an empty simplex is read as the vertex 0 (C128_empty_simplex).
* `PajekReader` loses vertices without labels if the file has no edges (C129_isolated), and accepts edges between vertices that are not declared, which yields edges without their vertices (C129_undeclared).
* `PajekReader` keeps the labels of earlier files: reading a file with labels again raises an exception about duplicate vertices (C129_again). Empty lines after the declaration of vertices and negative weights raise exceptions (C129_empty_line, C129_negative), and `1 2.5` is an edge between 1 and 2 with weight .5 (C129_joined).
* `BipartiteAdjacencyMatrixReader` counts empty lines as rows: an empty line at the end of a matrix with two rows and three columns yields a matrix with three rows and two columns (C130_lines). A text that starts with a comment is not read, without any error (C130_comment). With `setAssignMinimumAbsoluteVertexWeight` and negative weights, edges precede their vertices (C130_absolute). Contrary to the documentation, entries with value zero are edges (C130_graph_partial).
* `FlexSpectrumReader` takes minima before it normalises: for a negative total intensity, edges get the maximum of both values and precede their vertices (C132_negative). A spectrum with a single sample is not normalised (C132_single). The maps keep entries of earlier, longer files, contrary to their documentation, and divide their intensities by the new total (C132_maps_partial).
* `LinesAndPoints` with labels writes points with two coordinates like points with three coordinates without label (example after C131_unique).
* `SparseAdjacencyMatrixReader` collects vertices from edges only: nodes without edges are lost, and graphs without edges become empty complexes, whose label is empty if there are more labels than graphs (C133_isolated, C133_graphs_partial). Nodes that are missing in the graph indicator are added to the first graph (C133_unknown). `setReadGraphLabels( false )` makes every dataset with edges raise an exception, as labels are accessed in any case (C133_no_labels). Labels are selected by the position of a graph among all graphs instead of its number.
* `GMLReader` raises an exception for blank lines and attributes outside of the graph, such as `Version 1` (C134_outside). Nested lists such as `graphics [ … ]` lead to undefined behaviour (C134_nested). Files that end within a node or an edge are accepted (C134_truncated), and so are edges with a weight to unknown nodes, which yields a complex without some faces (C134_dangling). Identifiers that are numbers and others can be the same vertex (C134_collision). Values such as `-4` or `1e-5` are read as an empty text (`Spec.Gml.UnsupportedLine`, used by C134_read_partial). `id_to_index` uses the lexicographical order also for numbers, so that it does not map nodes to their vertices (C134_index). An attribute `id` of the graph is assigned to the first node.
* `GMLWriter` writes the data of vertices as attribute `data`, whereas `GMLReader` expects `weight` or `value`: the data of vertices is lost (C135_read_partial). Negative data of edges is written, but read as an empty text (C135_lost). Labels are counted from one without a way to change this: complexes with the vertex zero raise an exception if labels are used (C135_exception).
* `VTKStructuredGridReader` reads blank lines among the values as values (C136_blank), and so are the words of `SCALARS` with a name that contains an underscore and of `LOOKUP_TABLE default` with trailing whitespace or a carriage return (C136_keyword), although the header is trimmed. If there are too few values, the data of edges that have been created before are used instead and the complex lacks vertices (C136_few). Grids of other kinds and coordinates of type `unsigned_char` etc. are ignored without an exception (C136_ignored); the branches for these types are not reachable.
* `PLYReader` returns an empty complex for binary files (C137_binary), as `parseBinary` discards what it reads. Clouds of points fail an assertion (C137_empty). A triangle with a repeated vertex dereferences the end of a range (C137_degenerate), and vertices of faces are not checked (C137_dangling). The result of `std::getline` is ignored: a text that ends without a line feed is continued with its last line (C137_repeated). The columns of properties are counted over all elements, so that faces cannot be declared first (C137_order). Standard types such as `float32`, `int8` and `uint16` are missing (C137_types). The size of list properties is not initialised before it is added to the size of a vertex.
* `SimplicialComplexReader` promises consistent weights and sorted complexes, but this depends on the format: for GML files, edges may have smaller weights than their vertices (C139_inconsistent), and the simplices are not sorted (C139_unsorted). The documentation of `labels` promises that indices are vertices; for GML files whose identifiers are numbers, the index is the position of the identifier in lexicographical order (C139_gml_numbers), and for Pajek files, empty labels are skipped and the order is lexicographical as well, so that the label of vertex 10 precedes the label of vertex 2 (C139_pajek_labels). Labels remain when a file without labels is read (C139_stale).
* `TangentSpace` considers positive eigenvalues only. If all neighbours belong to a sphere, this sphere has eigenvalue 0; the sphere that is chosen instead intersects it orthogonally (C141_sphere), and for equidistant neighbours, for instance three points of a circle, all curvatures are 0 (C141_equidistant, C141_circle). The farthest neighbour always has weight 0. The first positive eigenvalue is chosen instead of the smallest one, but their order is not specified (C141_order). The centroid of neighbours is divided by the number of points instead of the number of neighbours (C141_centroid); this has no influence on curvatures (C141_normals).
* `clique_communities_to_json` removes vertices that are heavier than the threshold although their edges may be light (vertices are not normalised, and have weight 0 if the file does not contain weights of vertices); their cliques are lost (C144_heavy_vertices). The smallest weight, which is used for the normalisation, includes weights of vertices, such that the weights of edges are not normalised to [0,1].
* `clique_persistence_diagram` starts with the largest cliques and stops at the first empty graph; if there is no clique with `maxK + 1` vertices, nothing is reported (C145_too_large). With `--reverse` and a positive `--min-k`, no vertices are listed (C145_reverse). Twice the maximum weight is not larger than all weights if they are negative.
* `HDF5SimpleDataSpaceReader` takes the first dimension as the width, but in HDF5 files the last dimension varies fastest: the complex of a field with different numbers of rows and columns has edges between values that are not adjacent (C146_transposed). The type of the file is requested for the memory, so that values with the most significant byte first are read with reversed bytes on usual machines (C146_big_endian). Data sets with another number of dimensions are ignored without an exception (C146_other). A triangle is stored before two of its edges (C146_order); the complex must be sorted before it is used. An array is never freed.
* `GraphMLReader` ignores the functor for weights unless reading weights of edges is disabled: by default, edges without a weight get 0 (C147_functor). Documents that do not start with another node before `<graphml>`, and files that cannot be loaded, are undefined (C147_undefined); so are data without text and keys without a name (C147_data, C147_keys). Keys for graphs or for all elements raise an exception, and so do edges without an identifier (C147_keys, C147_identifiers), although GraphML permits both. Several nodes of the same identifier are accepted, and weights of edges are then derived from wrong nodes (C147_duplicate). Names of attributes are the identifiers of keys, not their names (C147_attributes).
* `normalize` for step functions assumes that the smallest value is zero: negative values are mapped below the range, an exception is raised if the largest value is zero, and the order of values is reversed if all of them are negative (C148_negative). Functions with at most one value remain as they are (C148_constant). Outside of all intervals, the normalized function is zero, even if zero is not in the range (C148_outside).
* `CoverTree::isHarmonic` modifies the tree. If the tree stores a point twice, it may not end (C149_endless), or points get lost (C149_lost). It replaces the root in order to decrease the level of the tree, which may increase the level (C149_raised). For empty trees, `getNodesByLevel`, `nodesToLevel`, `points` and `print` dereference a null pointer (C149_by_level, C149_to_level).
* `topological_distance`: the Wasserstein distance already contains the root for the power, the sum of these distances is rooted again (C150_rooted), and so is the sum of bottleneck distances (C150_bottleneck_partial); the distances of indicator functions are powers without any root (C150_indicator_partial). The distance of envelopes is the integral of |f + (-g)|, which is wrong if the difference changes its sign between two points (C150_envelope_wrong), as the class adds intersections of f and -g. A missing dimension of one data set raises an exception for the Wasserstein distance, as the default diagram has dimension zero (C150_missing). `-h` after `-b` selects the bottleneck distance (C150_options_wrong). The diagonal of kernel matrices is zero, so that no such matrix is positive semidefinite (C150_not_a_kernel). `-l` with an empty file is undefined (C150_run).
* `betti_numbers`: the comment announces the zeroth and first Betti number, only the latter is printed (C151_zeroth_wrong). Files whose names start with the same number overwrite each other, e.g. `C60_f012.gml` and `C60_f013.gml` both have the identifier 60 (C151_output, C151_identifier).
* `persistence_diagram_statistics`: the name of a file such as `v1.0.txt` loses two extensions, so that different files obtain the same name (C152_names_wrong); `--invalid` maps invalid points to the diagonal and removes the diagonal, so that valid points on the diagonal are not counted anymore (C152_diagonal_wrong); the means of empty diagrams are 0/0 (C152_statistics); an unknown option passes a null pointer to `std::stod` (C152_options); names with commas yield additional columns (C152_commas_wrong).
* `make_signature`: the capacity for an empty diagram is `(0 * 0 - 1) / 2` in unsigned arithmetic, so that `reserve` raises an exception and no signature is printed (C153_empty_wrong, C153_failure).
* `wicked_triangulations`: the complex is subdivided, its skeletons, which serve as strata, are not. A simplex of the subdivision meets them in at most one original vertex, so that barycentres of edges count as regular points; only the largest number k - p(k) of a perversity matters (C154_intersection_partial, C154_only_maximum). For two triangles with a common edge and p = (-1,-1) one component is reported instead of two (C154_wrong_strata). Graphs are treated correctly (C154_graphs). Lists of vertices only, and empty lists, raise an exception because `dimension - 1` wraps around (C154_main_points). From dimension 20 on, the number of perversities overflows (C154_overflow).
* `calculateIntersectionHomology` without dualization silently yields wrong results for complexes that are not sorted: an edge that is listed before its vertices has two components (C47_unsorted_wrong). With dualization, the default, the order does not matter (C47_any_order).
* `function_analysis`: a function with a single value, an empty line or a line with a leading separator ends the program with an exception (C156_rejected); a file that cannot be read is ignored without a message (C156_missing_file); if the output file cannot be opened the results are lost, but the status is 0 (C156_main). For superlevel sets persistence values are not positive, so that `--condense` reports the most persistent point as the minimum.
* Python module, `vietorisRips2d`: an edge is reported as the vertex that creates the component and one end point of the edge that destroys it; this need not be an edge of the minimum spanning tree (C158_edges_witness). The second edge of a pair is the first edge of the destroying triangle that is at least as long as the creator, not the longest (C158_pairs_witness).
* Python module: strides are divided by the size of a number, so that arrays that are fields of packed records are read at wrong places (C157_packed_witness). The diagrams of a single point are empty (C159_single_point_witness).
* Python module (by inspection): the property `dimension` of `PersistenceDiagram` has its getter and setter swapped; the functions for distances and kernels are defined but never added to the module; `load` with a functor yields `None`; `__getitem__` does not check the index.
* Python module, `calculatePersistenceDiagrams` for arrays: strides are ignored, so that a transposed array yields the diagrams of other points, and an array with negative strides is read out of bounds (C161_layout_witness). With the default threshold of zero no distance is small enough, and the diagrams are empty for all inputs (C161_default_epsilon).
* `connectivity_matrix_analysis`: the tool calls `sort()` without arguments, which sorts simplices lexicographically, although the reader has sorted them by weight. The diagrams are not those of the weights: for a matrix without zeros they only depend on its first row and its maximum (C162_first_row), and they change if rows are permuted (C162_witness). The option for the dimension has no effect (C162_errors), and so has `-v`. Two or more diagrams are written without commas, which is not JSON (C162_output_partial).
* `persistence_diagram_entropies`: a diagram with a single point, or one whose creation values all agree (as in dimension zero for most filtrations), leads to undefined behaviour, because the width of cells is zero (C163_failure).
* `network_analysis`: weights of nodes are used to find the range of weights, but only edges are normalized and inverted, so that an edge can precede its vertices (C164_node_weights_witness); with fewer weights than nodes, memory is read out of bounds (C164_few_node_weights_witness). With `--infinity`, all reported Betti numbers are zero (C164_factor_betti), and the separator between diagrams can be missing, because the program compares a modified diagram with an unmodified one in order to find the last one (C164_separator_witness). A graph without edges yields no output (C164_no_edges), and one without vertices an exception (C164_empty).
* `vietoris_rips --normalize` divides by the square of the largest distance, because the distance functor returns squared distances: for two points with distance 1/2, the reported value is 2 (C165_normalize_witness). Files that cannot be opened are treated as empty, and nothing is read from standard input if it is a pipe, because the loader has to return to the beginning of the stream (C165_input). A missing threshold is a null pointer (C165_arguments).
* `image_analysis` prints nothing for an image with a single pixel, although it has one region (C166_single_pixel): the number of diagrams is the dimension of the complex.
* `witness_complex` requires two arguments, although the second one is optional, and ignores the second one unless there is a third one (C167_arguments). Without options and with fewer than twenty points, there are fewer than two landmarks, and memory is read out of bounds (C167_default). Files that cannot be opened are treated as empty (C167_input).
* `ply --superlevel` sorts simplices by ascending values although their values are minima: the complex is not a filtration unless the values of the vertices of each triangle are equal (C169_superlevel), and the output is wrong (example in `Props/PlyExample.lean`).
* `vtk` reports only connected components, also for grids of dimension two and three: the reader creates no cells of dimension two (C168_output, field `dimensions`).
* `graph_analysis` reads behind the end of the vector of degrees as soon as the graph has an isolated vertex (C170_isolated): `degrees` skips such vertices, `assignMaximumData` expects a value for each of them.
* `graph_analysis -o ""` calls `back` for an empty string (C170_empty_directory).
* `vietoris_rips_eccentricity` divides zero by zero if all eccentricities are equal, which is the case for every pair of points (C171_two_points); all simplices then have the lowest number as their value. It dereferences the end of an empty range if the file cannot be opened (C171_failures).
* `StandardRectangular` skips each column whose maximum index is not smaller than the number of columns; such columns remain unreduced, and pairs are lost (C172_same_maximum, C172_missing_pair).
* `create_random_graph -w` does not end if all random numbers are below the probability, for example for probabilities of at least one (C173_divergence).
* `1D` raises an exception for each function with more than one value (C174_throws), because of C65.
* `create_persistence_diagrams --sphere` and `--torus` are ended by an exception if the sample is too sparse to contain a triangle (C175_sphere, C175_torus); `--box` writes an empty diagram with another file name if no two points are close (C175_box).
* `rips_distributions` counts each point as its own neighbour, so that all degrees are too large by one (C176_output_partial); for a single point its output is not JSON (C176_single_point).
* `persistence_indicator_function --mean` writes wrong means: the mean of a single function that vanishes between two intervals does not vanish there (C177_mean_witness), because of C50. Diagrams with the same name in different directories overwrite each other's results (C177_overwritten_witness).
* `point_cloud_data_descriptors` reads behind the end of an array for descriptors that are not known, and for clouds with fewer points than neighbours, of which there are 10 by default (C178_unsupported).
* `sparse_adjacency_matrices --superlevel` sorts simplices by ascending weights, which is not a filtration, and reports wrong diagrams (C179_superlevel). A single graph without edges makes the tool fail for the whole collection (C179_edgeless), nodes that only occur in loops lead to reads behind the end of an array (C179_loops), and the option for the dimension has no effect, because the expanded graphs are not used (C179_dimension).
* `persistent_spines -s METHOD` has undefined behaviour: the string of short options is `r:st`, so that `-s` has no argument, and a null pointer is assigned to a string (C180_failures).
* `piecewise_linear_function_smoothing` does not know the short option `-n` (the string is `a:`), so that its argument is taken for a file; the mean of functions with different domains is wrong, because `apply` interpolates between the domains (C181_domain_witness); level 1 raises an exception (C181_level).
* `ephemeral` sorts by ascending weights also for its descending filtration (`std::less` instead of `std::greater`), so that edges come before their vertices and the points are wrong (C182_descending_witness). Expanded simplices get at least the weight 0, so that negative correlations are wrong in dimensions above zero (C182_negative_witness). Correlations above 1 lead to negative distances, with edges before vertices (C182_distance_witness). The option for verbose output has no effect.
* `persistence_indicator_function_confidence_sets` uses the sum of step functions, which fills gaps, so that the mean of a single function may differ from the function (C183_gap_witness). The level 1 passes the test of the options, but never yields a result, because the index wraps around (C183_failures).
* `local_dimensionality` writes nothing for the method `mst` (the estimator discards the tree), for unknown methods, and for `nn` with 0 < K < k, without an error; with `--smooth` it then reads behind the end of an array. The same happens for fewer points than neighbours, that is, for fewer than nine points by default. The method `mle` always raises an exception without `-K` (C184_unsupported).
* `multi_scale_skeleton` writes values that are not numbers for points without edges: for a single point, and for all points that occur at least three times (C185_isolated). A file that cannot be opened, a file without points, and points with a single coordinate are undefined behaviour (C185_failures).
* `mean_curvature` does not write the curvature of a sphere for points of this sphere (C186_sphere); for three points of the unit circle, it always writes zero (C186_circle). For more neighbours than points, and for zero neighbours, its behaviour is undefined (C186_failures).
* `spectral_analysis` pairs the largest intensity with zero, also if the smallest intensity is a different one (example beside C187_diagram_partial; a comment in the code mentions it). Its transformation keeps one of several samples with the same position. A file without samples violates an assertion (C187_failures).
* `process_image_patches` hardly ever has output: its last loop runs over the indices of all patches, although the filter has removed some of them, so that an invalid index raises an exception unless the filter keeps all patches, i.e. unless more than four fifths of them share the smallest contrast (C188_output_partial, C188_failures). Fewer than five patches always raise an exception. The norm of a patch is computed with an accumulator of type `int`, so that the resulting points need not lie on the sphere (C188_sphere_partial), and the contrast norm lacks a square root and counts each pair twice, so that the contrast of a normalised patch is not one (C188_contrast_partial).
* `makeUpperFiltration` of `random_stratified_graphs` sorts a complex and then returns another one that is not sorted (C189_unsorted). `makeRandomStratifiedGraph` states that every stratum is connected to every other stratum, but connects consecutive strata only (C189_graph_partial).
* The comparison for absolute weights in `stratified_graph_analysis` is not a strict order, so that sorting has undefined behaviour: simplices with opposite weights precede each other if the dimensions disagree with the signs (C190_opposite), and so do a vertex and an edge with the same weight if the index of the vertex is larger than those of the edge (C190_absolute). The latter concerns global weights of vertices, which are also the settings of the option `--default`. Isolated vertices raise `std::out_of_range` in `assignVertexWeights` (C190_global, C190_local).
* `stratified_graph_analysis` replaces the second coordinate of unpaired points by the smallest absolute value of the weights after removing points on the diagonal. If no weight is negative, this yields a point on the diagonal (C192_diagonal). If all weights are negative, the value is not in the range of the weights, so that the normalised diagram, which is claimed to be in the unit interval, has a larger coordinate (C192_beyond).
* `persistent_intersection_homology` ends by an exception if there are no singular vertices, as the empty stratum has no dimension (C193_regular). With the option `--invert`, it uses the larger value of the vertices of an edge as without it, so that edges with a single singular vertex belong to the stratum, which then is not closed under faces (C193_not_closed), and triangles with one singular vertex are not allowable (C193_inverted). As the filter is declared `noexcept`, a vertex without a value terminates the program (C193_missing).

## Trusted base

* Lean's kernel (Lean 4.33.0) and Mathlib as compiled in the sandbox.
* The axioms `propext`, `Classical.choice` and `Quot.sound`; no others.
  `AXIOMS.md` lists, for every theorem named in `MANIFEST.json`, the axioms it
  depends on (the output of `#print axioms`).
* The reading of the C++ code recorded in the comments of the model, with the
  simplifications stated above and in these comments: exact arithmetic, no
  NaN, no memory exhaustion, unbounded integers except where noted, contracts
  of external libraries.
* No `sorry`, no `native_decide`, no `bv_decide`, no added axioms.
