{"id": "C01", "title": "Column addition is addition modulo two", "statement": "After addColumns(s,t) the target column contains exactly the indices that were in precisely one of the two columns, stays strictly ascending, and the source column and all other columns are unchanged; adding the same column twice restores the target.", "quantifier": "every pair of duplicate-free columns of any length over any indices, in all column representations (Vector, List, Set)", "why_tests_cant": "columns are unbounded and arbitrary; a test only fixes a handful of overlaps/interleavings", "anchors": ["include/aleph/topology/representations/Vector.hh: Vector::addColumns", "include/aleph/topology/representations/List.hh: List::addColumns", "include/aleph/topology/representations/Set.hh: Set::addColumns"]}
{"id": "C02", "title": "Column representations are interchangeable", "statement": "For every history of setNumColumns/setColumn/addColumns/clearColumn/setDimension calls with duplicate-free input columns, the Vector, List and Set representations return the same answers to getColumn, getMaximumIndex, getDimension and getNumColumns. With duplicate indices in the input they may differ.", "quantifier": "every finite history of representation operations and every query afterwards", "why_tests_cant": "the claim quantifies over histories of arbitrary length; tests compare a few matrices", "anchors": ["include/aleph/topology/representations/Vector.hh", "include/aleph/topology/representations/List.hh", "include/aleph/topology/representations/Set.hh"]}
{"id": "C03", "title": "Standard reduction terminates with a reduced matrix", "statement": "Running the Standard algorithm on a boundary matrix always terminates, and afterwards no two non-empty columns have the same maximum index.", "quantifier": "every matrix whose column entries lie below the number of columns, of any size", "why_tests_cant": "termination and reducedness for all matrices is not observable from finitely many runs", "anchors": ["include/aleph/persistentHomology/algorithms/Standard.hh: Standard::operator()"]}
{"id": "C04", "title": "Reduction only adds earlier columns to later ones", "statement": "After Standard reduction column j equals the original column j plus (mod 2) a combination of original columns with smaller indices; hence the spans of all column prefixes are unchanged.", "quantifier": "every matrix and every column index", "why_tests_cant": "needs an inductive invariant over an unbounded sequence of additions", "anchors": ["include/aleph/persistentHomology/algorithms/Standard.hh: Standard::operator()"]}
{"id": "C05", "title": "The pairing is the persistence pairing", "statement": "The finite pairs (i,j) reported by calculatePersistencePairing are exactly those for which a chain whose youngest simplex is i is a boundary of chains on simplices up to j but no such chain is a boundary of chains on simplices before j. In particular they do not depend on how the matrix was reduced.", "quantifier": "every boundary matrix with strictly upper triangular columns, every pair of indices", "why_tests_cant": "the specification is about all chains (exponentially many) of an arbitrary complex", "anchors": ["include/aleph/persistentHomology/Calculation.hh: calculatePersistencePairing", "include/aleph/persistentHomology/algorithms/Standard.hh"]}
{"id": "C06", "title": "Twist computes the same pairing as Standard", "statement": "For the boundary matrix of any filtered simplicial complex calculatePersistencePairing yields the same result with the Twist algorithm (the default) as with the Standard algorithm.", "quantifier": "every matrix with consistent dimensions and boundary-of-boundary zero", "why_tests_cant": "clearing is only sound because of an algebraic identity that must hold for every input", "anchors": ["include/aleph/persistentHomology/algorithms/Twist.hh: Twist::operator()", "include/aleph/persistentHomology/algorithms/Standard.hh"]}
{"id": "C07", "title": "Dualizing twice is the identity", "statement": "BoundaryMatrix::dualize() applied twice yields a matrix equal to the original one: same columns, same dimensions, same dualized flag; entry (i,j) of the dual is entry (n-1-j, n-1-i) of the original.", "quantifier": "every boundary matrix with strictly ascending columns whose entries are valid indices and whose stored dimensions attain 0", "why_tests_cant": "The matrices have arbitrary size and sparsity pattern; an off-by-one in the index reversal or a column left unsorted shows only for particular patterns.", "anchors": ["include/aleph/topology/BoundaryMatrix.hh: BoundaryMatrix::dualize"]}
{"id": "C08", "title": "Dualization does not change the pairing", "statement": "calculatePersistencePairing(M.dualize()) equals calculatePersistencePairing(M), so the dualize flag of calculatePersistenceDiagrams does not influence the result.", "quantifier": "every boundary matrix of a filtered simplicial complex, both reduction algorithms", "why_tests_cant": "a duality theorem; sampled complexes cannot establish it", "anchors": ["include/aleph/topology/BoundaryMatrix.hh: dualize", "include/aleph/persistentHomology/Calculation.hh: calculatePersistencePairing, calculatePersistenceDiagrams"]}
{"id": "C09", "title": "Pairings are well formed", "statement": "In the result of calculatePersistencePairing every index occurs at most once (as creator or as destroyer), every creator precedes its destroyer, dimension of destroyer is one more than the dimension of its creator, the list is sorted, and with includeAllUnpairedCreators every index of the matrix occurs.", "quantifier": "every boundary matrix of a filtered complex", "why_tests_cant": "The statement is an invariant of the reduction of every matrix; a test sees the pairs of a few matrices, whereas a clash of creator and destroyer may need a particular cancellation pattern.", "anchors": ["include/aleph/persistentHomology/Calculation.hh: calculatePersistencePairing"]}
{"id": "C10", "title": "Unpaired creators count Betti numbers", "statement": "With includeAllUnpairedCreators the number of unpaired creators of dimension d is the d-th Betti number over the field with two elements: dimension of the kernel of the boundary map on d-chains minus dimension of its image from (d+1)-chains.", "quantifier": "every filtered simplicial complex and every d", "why_tests_cant": "relates an algorithm to linear algebra on arbitrary complexes", "anchors": ["include/aleph/persistentHomology/Calculation.hh: calculatePersistencePairing", "include/aleph/persistenceDiagrams/PersistenceDiagram.hh: betti"]}
{"id": "C11", "title": "makeBoundaryMatrix is the boundary operator", "statement": "For a simplicial complex containing all faces, column j lists exactly the positions of the codimension-one faces of simplex j, the recorded dimension is the simplex dimension, applying the boundary twice gives zero, and if faces precede cofaces all entries of column j are smaller than j.", "quantifier": "every face-closed complex in every order", "why_tests_cant": "Boundary of boundary being zero is an algebraic identity quantified over all simplices of all dimensions; tests instantiate it for a few low-dimensional complexes.", "anchors": ["include/aleph/topology/Conversions.hh: makeBoundaryMatrix", "include/aleph/topology/Simplex.hh: begin_boundary, end_boundary"]}
{"id": "C12", "title": "Persistence diagrams report the data of paired simplices", "statement": "makePersistenceDiagrams returns, sorted by dimension, for each dimension of a creator one diagram containing exactly the points (data of creator, data of destroyer) or (data of creator, infinity) of the pairs whose creator has this dimension, with multiplicity; if the complex is ordered by data, creation never exceeds destruction.", "quantifier": "every pairing over every complex", "why_tests_cant": "It is an equality of multisets for every pairing and every weight assignment, including ties, which no finite set of pairings covers.", "anchors": ["include/aleph/persistenceDiagrams/Calculation.hh: makePersistenceDiagrams, makePersistenceDiagram"]}
{"id": "C13", "title": "Union-Find represents the generated equivalence relation", "statement": "After any sequence of merges and finds, find terminates, returns a member of the universe, and find(u)==find(v) holds exactly when u and v are connected by the merged pairs; find does not change which elements are equivalent; querying an unknown element throws.", "quantifier": "every universe and every finite history of merge and find operations", "why_tests_cant": "histories are unbounded and path compression mutates state on reads", "anchors": ["include/aleph/topology/UnionFind.hh: UnionFind"]}
{"id": "C14", "title": "Union-Find roots and classes form a partition", "statement": "roots() reports exactly one representative of each class, and get(r) reports exactly the elements of the class of the root r; merge(u,v) makes the representative of v the representative of the merged class.", "quantifier": "every finite history of operations", "why_tests_cant": "Histories of merges have unbounded length, and path compression changes the internal forest at every query.", "anchors": ["include/aleph/topology/UnionFind.hh: roots, get, merge"]}
{"id": "C15", "title": "Connected components are path components", "statement": "calculateConnectedComponents puts two vertices of a complex in the same component exactly if they are joined by a path of edges of the complex.", "quantifier": "every simplicial complex, in every order of its simplices", "why_tests_cant": "Reachability needs paths of arbitrary length; tests cover graphs of a few vertices.", "anchors": ["include/aleph/topology/ConnectedComponents.hh: calculateConnectedComponents"]}
{"id": "C16", "title": "Zero-dimensional persistence agrees with matrix reduction", "statement": "calculateZeroDimensionalPersistenceDiagram pairs a vertex v with an edge e exactly if the persistence pairing of the complex pairs v with e; its unpaired points are the unpaired vertices. Hence the union-find computation and the matrix reduction give the same zero-dimensional diagram up to points on the diagonal.", "quantifier": "every complex in filtration order", "why_tests_cant": "It is the equivalence of two different algorithms on all inputs; agreement on samples does not exclude a tie-breaking pattern on which they differ.", "anchors": ["include/aleph/persistentHomology/ConnectedComponents.hh: calculateZeroDimensionalPersistenceDiagram", "include/aleph/persistentHomology/Calculation.hh"]}
{"id": "C17", "title": "Zero-dimensional diagrams count components", "statement": "The diagram of calculateZeroDimensionalPersistenceDiagram has exactly one unpaired point per connected component and (with diagonal elements) number of vertices minus number of components paired points; each component is destroyed by the edge that merges it into a component with an older creator (elder rule), and every pair satisfies creation <= destruction for monotone data. For all thresholds a <= b, the number of points created until a and not destroyed until b is the number of connected components of the sublevel set of b that contain a vertex with data of at most a; the same holds for superlevel sets.", "quantifier": "every complex in filtration order, all pairs of thresholds", "why_tests_cant": "The elder rule depends on the whole history of merges of a component; the counts are claimed for graphs of every size.", "anchors": ["include/aleph/persistentHomology/ConnectedComponents.hh: calculateZeroDimensionalPersistenceDiagram"]}
{"id": "C18", "title": "Simplices are normalised vertex sets", "statement": "A simplex built from any vertex range stores the distinct vertices in strictly descending order; two simplices compare equal exactly if the ranges contain the same vertices; data does not influence equality or hash; dimension is number of distinct vertices minus one and throws for the empty simplex.", "quantifier": "every finite vertex range with arbitrary order and repetitions", "why_tests_cant": "The number of orders and multiplicities of vertices grows without bound; equality and hash must agree on all of them.", "anchors": ["include/aleph/topology/Simplex.hh: Simplex ctor, operator==, operator<, dimension, hash_value"]}
{"id": "C19", "title": "Boundary iteration enumerates codimension-one faces", "statement": "Iterating begin_boundary..end_boundary yields each subset obtained by removing one vertex exactly once (nothing for vertices and the empty simplex), every element has dimension one less, and each codimension-two face occurs in exactly two of the boundary simplices.", "quantifier": "every simplex of any dimension and any vertices", "why_tests_cant": "The claim holds for simplices of every dimension, and the cancellation in codimension two relates all pairs of boundary simplices.", "anchors": ["include/aleph/topology/Simplex.hh: boundary_iterator, begin_boundary, end_boundary"]}
{"id": "C20", "title": "The lexicographic order is a strict total order in which faces precede cofaces", "statement": "operator< on simplices is irreflexive, transitive and total up to equality, and every proper face compares less than its coface.", "quantifier": "all pairs and triples of simplices", "why_tests_cant": "Order axioms quantify over all triples of simplices of all dimensions.", "anchors": ["include/aleph/topology/Simplex.hh: operator<"]}
{"id": "C21", "title": "Filtration comparators are valid strict weak orders compatible with faces", "statement": "The Data, LowerStar and UpperStar comparators are strict total orders on distinct simplices (so std::sort is well defined and the sorted order is unique), and if data is monotone (faces do not exceed cofaces; for the star filtrations: always) then sorting by them places every face before its cofaces.", "quantifier": "every simplicial complex and every weight assignment in a linear order", "why_tests_cant": "order axioms and the filtration property for all complexes", "anchors": ["include/aleph/topology/filtrations/Data.hh", "include/aleph/topology/filtrations/LowerStar.hh", "include/aleph/topology/filtrations/UpperStar.hh", "include/aleph/topology/SimplicialComplex.hh: sort"]}
{"id": "C22", "title": "A simplicial complex never stores a simplex twice and its lookups are consistent", "statement": "After every history of push_back, insert, replace, rearrange, sort and remove operations all stored vertex sets are distinct; contains(s) holds iff some position stores s; index(s) is the unique position i with K[i]==s and throws iff s is absent; inserting a simplex already present changes nothing.", "quantifier": "every finite history of container operations", "why_tests_cant": "Histories of container operations have unbounded length and every operation must restore the invariant from every reachable state.", "anchors": ["include/aleph/topology/SimplicialComplex.hh: push_back, insert, contains, find, index, replace, rearrange, sort"]}
{"id": "C23", "title": "remove keeps the complex valid", "statement": "remove(s) on a face-closed complex deletes exactly s and all its cofaces and nothing else, keeps order and data of the remaining simplices, and leaves a face-closed complex; it terminates for arbitrary (also invalid) complexes.", "quantifier": "every complex and every simplex", "why_tests_cant": "The removal is a fixpoint iteration whose number of rounds depends on the complex, and it must end on every complex, including invalid ones.", "anchors": ["include/aleph/topology/SimplicialComplex.hh: remove, checkAndRestoreValidity"]}
{"id": "C24", "title": "createMissingFaces computes the downward closure", "statement": "createMissingFaces terminates, keeps all existing simplices in order at the front with their data, and the resulting set of simplices is exactly the set of non-empty faces of the original simplices, each once.", "quantifier": "every complex, valid or not, with any weights", "why_tests_cant": "The worklist grows while it is processed; termination and completeness concern complexes of all sizes and dimensions.", "anchors": ["include/aleph/topology/SimplicialComplex.hh: createMissingFaces, checkAndRestoreValidity"]}
{"id": "C25", "title": "recalculateWeights yields monotone weights", "statement": "After recalculateWeights on a face-closed complex listed with faces before cofaces the weight of each simplex of dimension at least one is the maximum (minimum) of the weights of its faces according to the flags; the resulting weights are monotone; vertex weights are unchanged.", "quantifier": "every complex and weight assignment", "why_tests_cant": "The weight of a simplex depends recursively on all of its faces; monotonicity must hold in every dimension.", "anchors": ["include/aleph/topology/SimplicialComplex.hh: recalculateWeights"]}
{"id": "C26", "title": "Rips expansion produces exactly the cliques", "statement": "RipsExpander::operator()(K,d) returns each non-empty vertex set of size at most d+1 whose vertices are vertices of K and pairwise joined by edges of K exactly once, and nothing else.", "quantifier": "every graph and every d", "why_tests_cant": "Correctness ranges over all graphs and expansion dimensions; a clique that is missed or found twice may need a graph larger than any test.", "anchors": ["include/aleph/geometry/RipsExpander.hh: operator(), addCofaces, intersect, getLowerNeighbours"]}
{"id": "C27", "title": "Rips weights are the maximum edge weight", "statement": "assignMaximumWeight gives every simplex of dimension at least one of an expanded complex the maximum weight of its edges (for non-negative weights), hence monotone weights; with negative weights the result is clamped at zero.", "quantifier": "every expanded complex and weight function", "why_tests_cant": "The weights are computed recursively over all dimensions, and the sign of the weights matters, which tests with distances never show.", "anchors": ["include/aleph/geometry/RipsExpander.hh: assignMaximumWeight, assignMaximumData, assignData"]}
{"id": "C28", "title": "Vietoris-Rips construction", "statement": "buildVietorisRipsComplex(nn, eps, d) contains a vertex set of size at most d+1 exactly if its points have pairwise distance below eps; its weight is the largest pairwise distance (0 for vertices), and the complex is in filtration order.", "quantifier": "every finite point set with symmetric distance, every eps and d", "why_tests_cant": "It ranges over all point clouds, all scales and all dimensions, including ties between distances.", "anchors": ["include/aleph/geometry/VietorisRipsComplex.hh: buildVietorisRipsComplex", "include/aleph/geometry/RipsSkeleton.hh", "include/aleph/geometry/BruteForce.hh: radiusSearch"]}
{"id": "C29", "title": "Maximal cliques: Bron-Kerbosch", "statement": "maximalCliquesBronKerbosch returns each inclusion-maximal clique of the 1-skeleton exactly once and nothing else.", "quantifier": "every graph given as the 1-skeleton of a complex", "why_tests_cant": "The recursion explores exponentially many vertex subsets; a lost or repeated maximal clique may occur only for particular overlaps.", "anchors": ["include/aleph/topology/MaximalCliques.hh: maximalCliquesBronKerbosch, enumerateBronKerbosch"]}
{"id": "C30", "title": "Maximal cliques: Koch", "statement": "maximalCliquesKoch returns each inclusion-maximal clique of the 1-skeleton exactly once and nothing else, hence agrees with Bron-Kerbosch.", "quantifier": "every graph given as the 1-skeleton of a complex", "why_tests_cant": "The recursion explores exponentially many vertex subsets; a lost or repeated maximal clique may occur only for particular overlaps.", "anchors": ["include/aleph/topology/MaximalCliques.hh: maximalCliquesKoch, enumerateKoch"]}
{"id": "C31", "title": "Floyd-Warshall computes shortest path lengths", "statement": "floydWarshall(K,w) returns for each pair of vertices the minimum total weight of a path of edges (edge weight, or w for edges of weight zero) and infinity iff no path exists; the matrix is symmetric with zero diagonal.", "quantifier": "every graph with non-negative weights", "why_tests_cant": "The claim quantifies over all paths of all weighted graphs.", "anchors": ["include/aleph/topology/FloydWarshall.hh: floydWarshall"]}
{"id": "C32", "title": "Cones and suspensions", "statement": "cone(K) contains exactly the simplices of K, the apex, and the join of the apex with each simplex of K; it is face-closed if K is, and its Euler characteristic is one; suspension(K) is the union of two cones and its Euler characteristic is 2 - chi(K).", "quantifier": "every non-empty complex, face-closed or not where stated", "why_tests_cant": "Which simplices occur and the value of the Euler characteristic are claimed for complexes of every size and dimension.", "anchors": ["include/aleph/topology/QuotientSpaces.hh: cone, suspension"]}
{"id": "C33", "title": "Spines are reached by elementary collapses", "statement": "spine(K) is a face-closed subcomplex of K reached by removing free-face pairs; it has no free face left, and the same Betti numbers as K. This holds for both implementations and for every order in which a hash map may return its elements.", "quantifier": "every face-closed complex, both implementations, every iteration order of the hash maps", "why_tests_cant": "the collapse sequence depends on the unspecified order of a hash map, a test observes a single order; the coface map must stay consistent along every sequence", "anchors": ["include/aleph/topology/Spine.hh: spine, dumb::spine"]}
{"id": "C34", "title": "Euler characteristic", "statement": "eulerCharacteristic(K) is the alternating sum of the number of simplices over all dimensions. The code omits the top dimension.", "quantifier": "every complex of any dimension", "why_tests_cant": "The formula is an identity for all complexes; a test whose top dimension is empty or cancels does not see the missing term.", "anchors": ["include/aleph/persistentHomology/EulerCharacteristic.hh: eulerCharacteristic"]}
{"id": "C35", "title": "The assignment solver is optimal", "statement": "The Munkres solver terminates and marks exactly one entry per row and column so that the total cost is minimal over all assignments.", "quantifier": "every square cost matrix of any size, with entries from any Archimedean ordered group", "why_tests_cant": "optimality compares the result with n! assignments, and termination of the cycle of five steps needs an invariant and a measure over runs of any length", "anchors": ["include/aleph/persistenceDiagrams/distances/detail/Munkres.hh: Munkres::operator()"]}
{"id": "C36", "title": "Wasserstein distance is the optimal matching cost", "statement": "wassersteinDistance(D1,D2,p)^p is the minimum over all partial matchings between the diagrams of the sum of p-th powers of distances of matched points and of distances to the diagonal of unmatched points; it is symmetric and zero for equal diagrams; different dimensions throw.", "quantifier": "every pair of diagrams without unpaired points, every base distance and power with non-negative costs", "why_tests_cant": "the specification is a minimum over all partial matchings of two point multisets of any size; tests can only compare values for a few tiny diagrams", "anchors": ["include/aleph/persistenceDiagrams/distances/Wasserstein.hh: wassersteinDistance"]}
{"id": "C37", "title": "Hausdorff distance is a metric on point sets", "statement": "hausdorffDistance is the Hausdorff distance of the point sets: symmetric, zero exactly for equal point sets, satisfies the triangle inequality on non-empty diagrams; zero for two empty diagrams, infinity if exactly one is empty.", "quantifier": "all pairs and triples of diagrams", "why_tests_cant": "Metric axioms quantify over all pairs and triples of diagrams, including empty ones and ones with repeated points.", "anchors": ["include/aleph/persistenceDiagrams/distances/Hausdorff.hh: hausdorffDistance"]}
{"id": "C38", "title": "Bottleneck distance", "statement": "bottleneckDistance(D1,D2) is the minimum over all matchings (including matching points to the diagonal) of the largest distance. The code builds a wrong bipartite graph.", "quantifier": "all pairs of diagrams", "why_tests_cant": "the distance is a minimum over all matchings, whose number grows factorially; whether the graph contains the right edges shows only for diagrams of particular sizes", "anchors": ["include/aleph/persistenceDiagrams/distances/Bottleneck.hh: bottleneckDistance"]}
{"id": "C39", "title": "Persistence diagram container operations", "statement": "removeDiagonal/removeUnpaired remove exactly the points with equal coordinates/infinite persistence and keep order; removeDuplicates keeps one copy of every point; merge is multiset union; betti counts unpaired points; equality ignores the stored dimension.", "quantifier": "all diagrams, as multisets of points in any order", "why_tests_cant": "The operations act on arbitrary multisets of points with arbitrary repetitions and infinite coordinates.", "anchors": ["include/aleph/persistenceDiagrams/PersistenceDiagram.hh: PersistenceDiagram"]}
{"id": "C40", "title": "Persistence indicator functions count active intervals", "statement": "persistenceIndicatorFunction(D) evaluated at any parameter that is not a coordinate of a point equals the number of points of D whose interval contains the parameter, for diagrams above or below the diagonal. This fails (undefined behaviour or termination) if the smallest coordinate belongs to a point on the diagonal and is not positive, or if intervals meet at a value whose successor is also a coordinate, and for diagrams with points on both sides of the diagonal.", "quantifier": "all diagrams and all parameters", "why_tests_cant": "the claim ranges over all multisets of intervals with arbitrary ties between start and end points and over a continuum of parameters", "anchors": ["include/aleph/persistenceDiagrams/PersistenceIndicatorFunction.hh: persistenceIndicatorFunction", "include/aleph/math/StepFunction.hh: StepFunction::operator()"]}
{"id": "C41", "title": "Symmetric matrix storage", "statement": "SymmetricMatrix(n) gives every unordered pair of indices below n its own cell, addressed symmetrically and inside the allocated block; indices out of range throw. For a 16 bit index type this fails from n = 362 on.", "quantifier": "all n and all index pairs", "why_tests_cant": "The index map must be injective and within bounds for every size; the 16 bit overflow appears only at a size larger than any test uses.", "anchors": ["include/aleph/math/SymmetricMatrix.hh: SymmetricMatrix::operator()"]}
{"id": "C42", "title": "Piecewise linear functions add pointwise on the common domain", "statement": "For piecewise linear functions f,g and every x in both domains (f+g)(x)=f(x)+g(x), (f-g)(x)=f(x)-g(x), (f*c)(x)=c*f(x); the value at breakpoints is exact; outside the domain the value is zero. A function constructed from points in any order interpolates them linearly; the absolute value of constructed functions and of differences is pointwise, and their integral is the integral of the p-th power of the absolute value. For sums, and outside the common domain, this does not hold.", "quantifier": "all functions, all arguments", "why_tests_cant": "the claim ranges over all finite sets of breakpoints of both functions, in any relative position, and over a continuum of arguments", "anchors": ["include/aleph/math/PiecewiseLinearFunction.hh: operator(), operator+, apply"]}
{"id": "C43", "title": "Cover tree invariants", "statement": "After any sequence of insertions the cover tree satisfies the level, covering and separating invariants and stores exactly the inserted points; insertion terminates.", "quantifier": "all finite sequences of points of any metric space", "why_tests_cant": "the invariants must hold after histories of insertions of any length, in any metric space; raising the level of the tree takes a number of rounds that depends on the distances", "anchors": ["include/aleph/geometry/CoverTree.hh: CoverTree::insert, isValid"]}
{"id": "C44", "title": "Dowker complexes", "statement": "The Dowker source complex contains a vertex set (of size at most d+1) exactly if all its vertices are admissible from a common base point, with weight the minimum over base points of the maximum pair weight; dually for sinks. Both are sorted filtrations, do not depend on the order of hash maps, and admissible pairs are those within the given distance along directed walks.", "quantifier": "all lists of admissible pairs, all dimensions, all weight matrices and thresholds, all orders of the hash maps", "why_tests_cant": "the simplices of a Dowker complex are exponentially many subsets of arbitrary weighted relations, and a test observes one order of the hash maps only", "anchors": ["include/aleph/geometry/DowkerComplex.hh: buildDowkerSinkSourceComplexes, buildDowkerSourceCompplex, admissiblePairs"]}
{"id": "C45", "title": "Witness complexes", "statement": "buildWitnessComplex returns exactly the non-empty sets of at most dimension+1 landmarks any two of which have a witness, i.e. a point whose distances to both are at most R plus its distance to its nu-th nearest landmark. Edges have the smallest distance for which there is a witness as weight, other simplices the largest weight of their edges, vertices zero; the result is a filtration sorted by weights. Random landmarks are pairwise different valid indices; each max-min landmark has the largest distance to the nearest one of the landmarks chosen before.", "quantifier": "all numbers of points, distances, lists of landmarks, parameters nu and R, dimensions, random choices and traversal orders of hash tables", "why_tests_cant": "the result depends on all distances of points and landmarks at once and on the traversal order of hash tables; tests only compare Betti numbers for a few random point clouds", "anchors": ["include/aleph/geometry/WitnessComplex.hh: buildWitnessComplex, generateRandomLandmarks, generateMaxMinLandmarks"]}
{"id": "C46", "title": "Skeletons and filters", "statement": "Skeleton(k,K) keeps exactly the simplices of dimension at most k, Filter keeps exactly those satisfying the predicate, both in order; the skeleton of a face-closed complex is face-closed.", "quantifier": "all complexes", "why_tests_cant": "the claim ranges over all complexes, dimensions and predicates; closure under faces relates every simplex to all of its faces", "anchors": ["include/aleph/topology/Skeleton.hh: Skeleton", "include/aleph/topology/Filter.hh: Filter"]}
{"id": "C47", "title": "Persistent intersection homology", "statement": "calculateIntersectionHomology(K,X,p) moves to the front, in their original order, exactly the simplices that are allowable with respect to the strata X and the perversity p (every face lying in the stratum X_{d-k} has dimension at most dim - k + p(k)); it returns, for every reduction algorithm, column container and choice of dualization, the diagrams of the persistence pairs of the allowable simplices, which count the homology of allowable chains with allowable boundary at each filtration step. Inconsistent input raises an exception. Perversities are clamped to the allowed range, lastLexicographicalIntersection returns the largest stored face of a simplex, and partition is stable.", "quantifier": "all filtered complexes, stratifications, perversities, algorithms and column containers", "why_tests_cant": "Allowability quantifies over all faces and strata, and the claim about homology relates the reduced truncated matrix to a count of all chains; tests check the Betti numbers of a few fixed spaces.", "anchors": ["include/aleph/persistentHomology/PhiPersistence.hh: partition, Perversity, PerversityGM, calculateIntersectionHomology", "include/aleph/topology/Intersections.hh: lastLexicographicalIntersection"]}
{"id": "C48", "title": "Barycentric subdivision", "statement": "For a face-closed complex, stored in any order, the barycentric subdivision succeeds. Its simplices are in bijection with the chains of proper faces of the complex: there is a numbering of the simplices by distinct vertices under which every chain is sent to the set of its numbers. The result contains no simplex twice, is face-closed, and has the same Euler characteristic. The weight of a new simplex is the weight of the largest simplex of the chain, scaled by the user's functor applied to its number of vertices (the documentation says: its dimension), except for chains that are a single original vertex. If faces are missing an exception is raised; if the complex has no vertices the result is empty.", "quantifier": "every face-closed complex in every order of its simplices, every scaling functor; for the exception: every complex with a missing face", "why_tests_cant": "The recursion goes through all dimensions and the number of chains of faces grows factorially; tests subdivide a few small complexes, and every order in which the simplices are stored must give the same result.", "anchors": ["include/aleph/topology/BarycentricSubdivision.hh: BarycentricSubdivision::operator()"]}
{"id": "C49", "title": "Kahan summation is exact in exact arithmetic", "statement": "Over exact arithmetic accumulate_kahan and accumulate_kahan_sorted return the sum of the range plus the initial value, independent of order.", "quantifier": "all finite ranges and all initial values", "why_tests_cant": "It must hold for ranges of every length and for every order of summation.", "anchors": ["include/aleph/math/KahanSummation.hh"]}
{"id": "C50", "title": "Step functions", "statement": "Step function evaluation returns the value of the interval containing the argument, and zero outside all intervals; operations with scalars act pointwise; the integral is the sum of the areas. The sum of two step functions is the pointwise sum between end points, provided neighbouring end points are not adjacent numbers and no summand takes another value between two neighbouring end points at which both summands have the same values (a gap or a dip); otherwise the sum is wrong.", "quantifier": "all histories of added intervals and all arguments", "why_tests_cant": "the claim ranges over all sequences of added intervals, including overlapping ones, and over a continuum of arguments", "anchors": ["include/aleph/math/StepFunction.hh: StepFunction"]}
{"id": "C51", "title": "The diagram pipeline is correct and independent of algorithm, representation and dualization", "statement": "For every filtered simplicial complex calculatePersistenceDiagrams succeeds and returns the same diagrams for every reduction algorithm, column representation and for dualized or non-dualized input; if data is monotone along the filtration no finite point lies below the diagonal; the number of infinite points of dimension d, with all unpaired creators, is the d-th Betti number; and for all thresholds x and y, the number of points of dimension d that are created at x at the latest and not destroyed at y is the persistent Betti number: the dimension of the cycles present at x modulo boundaries present at y.", "quantifier": "every filtered simplicial complex, both algorithms, all representations, both dualization flags", "why_tests_cant": "Tests compare a few complexes and configurations; agreement of all configurations on every complex is a statement about arbitrary sizes and dimensions.", "anchors": ["include/aleph/persistentHomology/Calculation.hh: calculatePersistenceDiagrams", "include/aleph/topology/Conversions.hh: makeBoundaryMatrix", "include/aleph/persistenceDiagrams/Calculation.hh: makePersistenceDiagrams"]}
{"id": "C52", "title": "Diagrams do not depend on how ties are broken", "statement": "If the same simplices are listed in two orders which both place faces before cofaces and both are sorted by data, calculatePersistenceDiagrams returns for both the same dimensions and, in every dimension, the same points with the same multiplicities (including points on the diagonal).", "quantifier": "every complex and every pair of filtration orders compatible with the data", "why_tests_cant": "The number of compatible orders is exponential in the number of ties; equality of the diagrams as multisets is a theorem about ranks, not about examples.", "anchors": ["include/aleph/persistentHomology/Calculation.hh: calculatePersistenceDiagrams"]}
{"id": "C53", "title": "Sparse binary matrices store sets of entries", "statement": "After any sequence of set(row,column) calls, get(row,column) is true exactly for the entries that were set, numEntries is the number of different rows set in a column, and enumerating a column yields each of them once; using a column that does not exist throws.", "quantifier": "every number of columns and every sequence of calls", "why_tests_cant": "Tests exercise a few entries; the claim is about arbitrary call histories including repeated and out-of-range calls.", "anchors": ["include/aleph/math/SparseMatrix.hh: SparseBinaryMatrix"]}
{"id": "C54", "title": "Combination enumeration visits every subset once", "statement": "The loop do { use first k } while( next_combination(begin, begin+k, end) ) over a strictly ascending range uses every k-element subset exactly once, in ascending order inside the subset, terminates, and leaves the range as it was.", "quantifier": "every strictly ascending range and every k up to its length", "why_tests_cant": "The number of subsets grows exponentially; a test can only compare small instances, and a skipped or repeated subset may only appear for particular lengths.", "anchors": ["include/aleph/geometry/RipsExpanderTopDown.hh: next_combination"]}
{"id": "C55", "title": "Top-down Rips expansion", "statement": "RipsExpanderTopDown(K,kMax,kMin) returns the cliques of the 1-skeleton with kMin+1 to kMax+1 vertices, each once; for kMin=0 these are the simplices of the bottom-up expansion. Its assignMaximumWeight(K,S,d) keeps the simplices and gives each simplex of dimension at least d the largest weight of its d-faces in S.", "quantifier": "every graph, all kMin, kMax, d and weights", "why_tests_cant": "Completeness over all graphs and dimensions cannot be established by examples; it depends on maximal clique enumeration and subset enumeration both being complete.", "anchors": ["include/aleph/geometry/RipsExpanderTopDown.hh: operator(), assignMaximumWeight"]}
{"id": "C57", "title": "Euler-Poincare formula", "statement": "For every filtered simplicial complex the alternating sum of the numbers of simplices equals the alternating sum of the Betti numbers read off the persistence diagrams computed with all unpaired creators.", "quantifier": "every filtered simplicial complex, every reduction algorithm and representation", "why_tests_cant": "The identity links counting simplices with the whole reduction pipeline and is claimed for complexes of every size and dimension; a test checks individual complexes only.", "anchors": ["include/aleph/topology/SimplicialComplex.hh: SimplicialComplex", "include/aleph/persistentHomology/Calculation.hh: calculatePersistenceDiagrams", "include/aleph/persistenceDiagrams/PersistenceDiagram.hh: betti"]}
{"id": "C58", "title": "Nearest neighbour distances of diagrams", "statement": "For non-empty diagrams nearestNeighbourDistance and sumOfMinimumDistances return half of the sum of the distances of every point to the nearest point of the other diagram; the value is symmetric, not negative, and zero exactly if both diagrams have the same set of points. If exactly one diagram is empty, sumOfMinimumDistances returns infinity while nearestNeighbourDistance adds up the largest value of the data type.", "quantifier": "every pair of diagrams over exact arithmetic whose distances do not exceed the largest value of the data type", "why_tests_cant": "The claim is about all finite multisets of points; sentinel values and the order of summation can only fail for particular sizes and values.", "anchors": ["include/aleph/persistenceDiagrams/distances/NearestNeighbour.hh: nearestNeighbourDistance", "include/aleph/persistenceDiagrams/distances/PointSet.hh: sumOfMinimumDistances"]}
{"id": "C56", "title": "Clique graphs", "statement": "getCliqueGraph(K,k) returns a graph with exactly one vertex per k-simplex of K, named by the position of that simplex in K and carrying its data value, and an edge between two of them exactly if the two simplices are distinct and share a (k-1)-face; the edge carries the value of the functor for the two data values (the maximum by default), and no vertex or edge occurs twice.", "quantifier": "every simplicial complex, face-closed or not, every dimension k and every weight functor", "why_tests_cant": "Whether an edge is missing or doubled depends on how faces are shared among simplices of an arbitrary complex; a test only sees the sharing patterns of the complexes it builds.", "anchors": ["include/aleph/topology/CliqueGraph.hh: getCliqueGraph"]}
{"id": "C59", "title": "Iteration over combinations", "statement": "for_each_combination(first, mid, last, f) calls f on every selection of mid-first elements of the range exactly once, in lexicographic order of positions and with the elements in their original relative order, until f returns true or the selections are exhausted. It reports whether f asked to stop. The range is a permutation of the original one at any time, and is restored exactly if f never asked to stop.", "quantifier": "every range, every position of mid, every callback with arbitrary state", "why_tests_cant": "The routine permutes the range in place with nested rotations; whether a selection is skipped, repeated or left in the wrong order depends on the lengths of both parts, and a test fixes these lengths.", "anchors": ["include/aleph/math/Combinations.hh: for_each_combination, combine_discontinuous, rotate_discontinuous"]}
{"id": "C60", "title": "Distances of vectors", "statement": "The Manhattan, Hamming and Euclidean distance functors return, for two vectors of the same dimension, the sum of the absolute differences, the number of different coordinates and the sum of the squared differences, respectively, whatever the dimension is. With a positive bound they may return a smaller value, but only one that exceeds the bound. Without a bound, and after the conversion of the traits class, all three are metrics.", "quantifier": "all vectors of every dimension, every bound", "why_tests_cant": "The loops are unrolled by four with an early exit and a remainder loop; whether a coordinate is dropped or counted twice depends on the dimension, and the triangle inequality is a claim about all triples of vectors.", "anchors": ["include/aleph/geometry/distances/Manhattan.hh: Manhattan", "include/aleph/geometry/distances/Hamming.hh: Hamming", "include/aleph/geometry/distances/Euclidean.hh: Euclidean", "include/aleph/geometry/distances/Traits.hh: Traits", "include/aleph/geometry/distances/Wrapper.hh: Wrapper"]}
{"id": "C61", "title": "Nearest neighbour queries", "statement": "neighbourSearch(k) of the brute-force structure returns for each point k different indices with their distances to the point, in ascending order of distance, such that no unreported point is closer than a reported one; each point is its own first neighbour if all other points are at positive distance. radiusSearch(r) returns for each point exactly the points at distance less than r with their distances. Asking for more neighbours than there are points is undefined.", "quantifier": "all finite point sets, all distance functions, every k and every radius", "why_tests_cant": "The indices and the distances are sorted independently, with an unstable sort and arbitrary ties; that they still correspond is a claim about every sorting algorithm and every pattern of ties.", "anchors": ["include/aleph/geometry/BruteForce.hh: BruteForce::neighbourSearch, BruteForce::radiusSearch"]}
{"id": "C62", "title": "\u010cech complexes", "statement": "buildCechComplex(container, r) returns a simplicial complex that contains exactly the non-empty sets of points whose closed balls of radius r have a common point, each of them once. Vertices have value zero, every other simplex the diameter of its smallest enclosing ball. The complex is closed under faces and sorted such that it is a filtration.", "quantifier": "all finite point sets, every radius, every correct implementation of smallest enclosing balls", "why_tests_cant": "The construction stops at the first dimension without simplices and relies on the monotonicity of smallest enclosing balls; that no higher simplex is missed is a statement about all point configurations.", "anchors": ["include/aleph/geometry/CechComplex.hh: buildCechComplex"]}
{"id": "C63", "title": "Beta-skeletons", "statement": "buildBetaSkeletonNaive(container, beta) returns the points together with exactly those edges whose closed lune (intersection of the two balls of diameter beta times the distance, centred on the segment) contains no other point, each edge once and with its length as value; the points precede the edges. For beta=1 this is the Gabriel graph, for beta=2 the relative neighbourhood graph, and a larger beta never yields more edges.", "quantifier": "all finite point sets of every dimension, every beta (non-negative for the monotonicity)", "why_tests_cant": "Emptiness of a region is a condition about all remaining points in arbitrary position; a test shows it for a few configurations only.", "anchors": ["include/aleph/geometry/BetaSkeleton.hh: buildBetaSkeletonNaive, BetaLune, BetaBall", "include/aleph/utilities/ContainerOperators.hh: operator*, operator+"]}
{"id": "C64", "title": "Functions of one variable", "statement": "loadFunctions and loadFunction(begin,end,f) turn a sequence of function values into the path with one vertex per value and one edge per pair of adjacent values; vertex i carries the i-th value and the edge {i,i+1} the value of f for its two vertices; nothing else is in the complex, which is closed under faces and lists faces first. loadFunction(file,M,values) fills a default-constructed boundary matrix M with the boundary matrix of that path (with f=max) in the order of a filtration with ascending values and returns these values in the same order; a file without values is rejected.", "quantifier": "all sequences of function values, of every length and with arbitrary ties, every functor, all column representations", "why_tests_cant": "The order of the matrix columns depends on the complete order of the values including ties between vertices and edges; a test fixes a few sequences.", "anchors": ["include/aleph/topology/io/Function.hh: loadFunction, loadFunctions"]}
{"id": "C65", "title": "Persistence diagram of a function of one variable", "statement": "For a matrix and values obtained by loadFunction(file,M,values), calculatePersistenceDiagram(M,values) returns the zero-dimensional persistence diagram of the sublevel sets of the function.", "quantifier": "all non-empty sequences of function values, all reduction algorithms and column representations", "why_tests_cant": "Which vertices are paired with which edges depends on the whole order of the values.", "anchors": ["include/aleph/persistentHomology/Calculation.hh: calculatePersistenceDiagram", "include/aleph/persistenceDiagrams/Calculation.hh: makePersistenceDiagram", "include/aleph/topology/io/Function.hh: loadFunction"]}
{"id": "C66", "title": "Norms of persistence diagrams", "statement": "The total persistence of a diagram is the sum of the powers of its absolute persistence values (weighted by the absolute creation values on demand); it is independent of the order of the points, additive over unions, and ignores points on the diagonal. For a positive exponent the p-norm is non-negative, zero exactly if all points lie on the diagonal, absolutely homogeneous, bounded from below by the infinity norm and from above by the infinity norm times the p-th root of the number of points; the infinity norm is the largest absolute persistence value, and the limit of the p-norms. The exponent zero is rejected.", "quantifier": "every diagram with real values and every positive real exponent", "why_tests_cant": "the norms range over all diagrams and exponents, and the limit over infinitely many exponents", "anchors": ["include/aleph/persistenceDiagrams/Norms.hh: totalPersistence, pNorm, infinityNorm"]}
{"id": "C67", "title": "Extraction of persistence values", "statement": "Extracting persistence values gives one value per point in the order of the diagram. Extracting weighted persistence values gives one value per distinct point, in lexicographic order of the points: the fraction of points of the diagram with these coordinates times the persistence; the values add up to the mean persistence.", "quantifier": "every diagram, with any multiplicities, in any order", "why_tests_cant": "the claim is about all multisets of points", "anchors": ["include/aleph/persistenceDiagrams/Extraction.hh: persistence, weightedPersistence"]}
{"id": "C68", "title": "Persistence-weighted kernels", "statement": "The linear persistence-weighted kernel of two diagrams is the sum over all pairs of points of both weights times the kernel of the points; with the default kernel it is symmetric, additive and positive semidefinite. The pseudo-metric is the distance in the feature space of this kernel, and the Gaussian kernel decreases with this distance.", "quantifier": "all diagrams, weight functions and smoothing parameters", "why_tests_cant": "positive semidefiniteness is a statement about all finite families of diagrams", "anchors": ["include/aleph/persistenceDiagrams/kernels/KernelEmbedding.hh: linearKernel, pseudoMetric, gaussianKernel, DefaultKernel, DefaultWeightFunction"]}
{"id": "C69", "title": "Multi-scale kernel and its metric", "statement": "The multi-scale kernel is symmetric, additive, independent of the order of the points, and ignores points on the diagonal. The distance based on it is always a number, symmetric, satisfies the triangle inequality, and is zero exactly for diagrams with the same points off the diagonal (with multiplicities).", "quantifier": "all diagrams with real points, all positive smoothing parameters", "why_tests_cant": "definiteness and the triangle inequality quantify over all diagrams and need an argument about infinitely many moments", "anchors": ["include/aleph/persistenceDiagrams/kernels/MultiScaleKernel.hh: multiScaleKernel, multiScaleFeatureMap, multiScalePseudoMetric"]}
{"id": "C70", "title": "Trimming and splitting of strings", "statement": "Trimming removes exactly the whitespace at both ends of a string. Splitting a string at sequences of separators returns the maximal parts without separators, in order (with an empty first part if the string starts with a separator); splitting by whitespace returns the non-empty parts, and counting tokens their number.", "quantifier": "all strings and all sets of separators", "why_tests_cant": "strings have unbounded length; corner cases are separators at the ends", "anchors": ["include/aleph/utilities/String.hh: ltrim, rtrim, trim, split, splitByWhitespace, countTokens"]}
{"id": "C71", "title": "Point cloud container", "statement": "A point cloud behaves like a list of points of fixed dimension: new clouds are zero, reading returns what was written, writing one point does not change others, concatenation appends, equality compares dimension and points; invalid indices and wrong dimensions are rejected.", "quantifier": "all point clouds, indices and points", "why_tests_cant": "flat arrays with computed offsets must be right for every size and dimension", "anchors": ["include/aleph/containers/PointCloud.hh: PointCloud, set, get, operator[], operator+, operator=="]}
{"id": "C72", "title": "Reading and writing point clouds", "statement": "Loading a text gives one point per line that is neither empty nor a comment, with one coordinate per field; lines with different numbers of fields are rejected; writing a point cloud and loading the result gives the same point cloud.", "quantifier": "all texts and all point clouds", "why_tests_cant": "all combinations of comments, empty lines and line endings", "anchors": ["include/aleph/containers/PointCloud.hh: load, operator<<", "include/aleph/utilities/String.hh"]}
{"id": "C73", "title": "Triangulated grid of a matrix", "statement": "A matrix with at least one entry becomes the triangulated grid of its entries: one vertex per entry, edges between horizontal, vertical and diagonal neighbours, and (on demand) the two triangles per square; vertices carry the entries, other simplices the combined values of their vertices (by default the maximum). The complex is closed under faces, stored with faces first, and has Euler characteristic one.", "quantifier": "all matrices, all functors", "why_tests_cant": "the grid has unboundedly many cells; missing or doubled simplices at the borders show up only for particular sizes", "anchors": ["include/aleph/topology/io/Matrix.hh: MatrixReader"]}
{"id": "C74", "title": "Reading matrices", "statement": "A text whose lines consist of the same number of numbers is read as the matrix of these numbers; empty lines and comments are permitted; lines with different numbers of columns are rejected.", "quantifier": "all texts", "why_tests_cant": "all combinations of whitespace, line endings and comments", "anchors": ["include/aleph/topology/io/Matrix.hh: MatrixReader", "include/aleph/utilities/String.hh"]}
{"id": "C75", "title": "Graph of an adjacency matrix", "statement": "A square matrix becomes the weighted graph of its entries above the diagonal (without zero weights, on demand), with a common weight for all vertices; the complex is closed and in filtration order.", "quantifier": "all square matrices, all weight functors and all strategies for vertex weights", "why_tests_cant": "the order must be right for every combination of weights and options", "anchors": ["include/aleph/topology/io/AdjacencyMatrix.hh: AdjacencyMatrixReader"]}
{"id": "C76", "title": "Reading adjacency matrices", "statement": "A text with as many lines as numbers per line is read as a square matrix; empty lines and comments are permitted; everything else is rejected.", "quantifier": "all texts", "why_tests_cant": "all combinations of comments, empty lines and line endings", "anchors": ["include/aleph/topology/io/AdjacencyMatrix.hh: AdjacencyMatrixReader"]}
{"id": "C77", "title": "Reading edge lists", "statement": "An edge list is read as the weighted graph of its lines, without comments and empty lines: numbers are vertices as they are; labels are numbered consecutively in the order of their first occurrence in the file; repeated edges keep their first weight; lines with less than two fields are rejected. The complex is closed and stored with faces first.", "quantifier": "all texts, all separators and options, every history of the reader", "why_tests_cant": "labels and numbers depend on the whole text read before", "anchors": ["include/aleph/topology/io/EdgeLists.hh: EdgeListReader", "include/aleph/utilities/String.hh"]}
{"id": "C78", "title": "Persistent entropy", "statement": "The persistent entropy of a diagram is the Shannon entropy of its persistence values, normalised by their sum: between zero and the binary logarithm of the number of points, zero for a single point, maximal for equal values, and invariant under permutation, translation and scaling. Points of zero persistence do not contribute.", "quantifier": "all persistence diagrams", "why_tests_cant": "bounds, the cases of equality and invariance concern all diagrams", "anchors": ["include/aleph/persistenceDiagrams/Entropy.hh: persistentEntropy"]}
{"id": "C79", "title": "Spatial entropies", "statement": "The nearest-neighbour entropy of a diagram is the Shannon entropy of the squared distances of its points to their nearest neighbours; the grid entropy is the Shannon entropy of the numbers of points in the cells of a regular grid over the bounding box, where each point lies in exactly one cell.", "quantifier": "all persistence diagrams and all sizes of the grid", "why_tests_cant": "degenerate diagrams and boundary cells are the critical inputs", "anchors": ["include/aleph/persistenceDiagrams/Entropy.hh: nearestNeighbourAreaEntropy, gridEntropy"]}
{"id": "C80", "title": "Combinatorial curvature", "statement": "The combinatorial curvature of a simplex is the number of its cofaces plus the number of its facets minus the number of its parallel neighbours (other simplices of the same dimension that share a face or a coface with it, but not both); for an edge of a graph, this is four minus the degrees of its vertices.", "quantifier": "all simplicial complexes and all dimensions", "why_tests_cant": "parallel neighbours depend on the whole complex", "anchors": ["include/aleph/topology/CombinatorialCurvature.hh: curvature, parallelNeighbours"]}
{"id": "C81", "title": "Weighted combinatorial curvature", "statement": "For weighted complexes, the curvature follows Forman's definition; with unit weights it is the unweighted curvature.", "quantifier": "all complexes with positive weights", "why_tests_cant": "the sum runs over all pairs of simplices with common faces or cofaces", "anchors": ["include/aleph/topology/CombinatorialCurvature.hh: curvature"]}
{"id": "C82", "title": "Degrees of vertices", "statement": "The degree of a vertex is the number of simplices of positive dimension that contain it; the degrees are reported for all vertices in ascending order. In a graph they sum up to twice the number of edges.", "quantifier": "all simplicial complexes", "why_tests_cant": "counts of all simplices around every vertex", "anchors": ["include/aleph/topology/filtrations/Degree.hh: degrees"]}
{"id": "C83", "title": "Angle defects", "statement": "The n-degree of a simplex is the number of simplices of top dimension that contain it. The angle defect of a simplex of codimension two is the full angle minus the angles of the regular simplices around it; for closed surfaces the defects sum up to the Euler characteristic times the full angle.", "quantifier": "all simplicial complexes", "why_tests_cant": "a relation between local values and a global invariant, for all triangulations", "anchors": ["include/aleph/topology/CombinatorialCurvature.hh: angleDefectCurvature", "include/aleph/topology/filtrations/Degree.hh: n_degree"]}
{"id": "C84", "title": "Envelope of persistence diagrams", "statement": "The envelope of a persistence diagram is the piecewise linear function through the highest points of the diagram, drawn with mid-life and persistence as coordinates: no point is above it, and it touches a point for every first coordinate. It does not depend on anything but the diagram.", "quantifier": "all persistence diagrams, with and without points of infinite persistence", "why_tests_cant": "dependence on memory behind an array shows up for particular memory contents only", "anchors": ["include/aleph/persistenceDiagrams/Envelope.hh: Envelope"]}
{"id": "C85", "title": "Sample statistics", "statement": "Mean, variance, standard deviation, covariance, skewness and kurtosis of samples follow their definitions, are NaN for too small or constant samples only, and transform correctly under affine maps; variances are non-negative, and the kurtosis is bounded from below by the squared skewness minus two.", "quantifier": "all finite samples of real numbers", "why_tests_cant": "algebraic identities and inequalities for all samples of all sizes", "anchors": ["include/aleph/math/Statistics.hh: sampleMean, sampleVariance, sampleCovariance, sampleSkewness, sampleKurtosis, sampleStandardDeviation"]}
{"id": "C86", "title": "Median", "statement": "The median of a non-empty range is the middle element of the sorted range, or the mean of the two middle elements; at least half of the values are on either side, and it minimises the sum of distances to the values. The result does not depend on the order of the range.", "quantifier": "all non-empty ranges and all behaviours of the selection algorithm", "why_tests_cant": "depends on the unspecified order that partial sorting leaves behind", "anchors": ["include/aleph/math/Quantiles.hh: median"]}
{"id": "C87", "title": "Bootstrap", "statement": "Replicates are the values of the statistic for samples with replacement of the size of the data; all such samples can occur. The standard error is the standard deviation of the replicates. The confidence intervals at level 1 - alpha leave out at most the fraction alpha / 2 of the replicates on either side.", "quantifier": "all data, statistics, numbers of replicates, levels and random numbers", "why_tests_cant": "ranges over all sequences of random numbers", "anchors": ["include/aleph/math/Bootstrap.hh: Bootstrap"]}
{"id": "C88", "title": "Random graphs", "statement": "Generating a random graph on n vertices yields all n vertices, no loops and no multiple edges, stored with vertices before edges; each pair of vertices is decided by one draw of its own, so that every graph on n vertices can arise. In weighted graphs the weight of an edge is the number of successes before the first failure of its own draws, edges of weight zero are absent, and every assignment of weights can arise.", "quantifier": "all sizes, all probabilities and all sequences of random numbers", "why_tests_cant": "ranges over all sequences of random numbers", "anchors": ["include/aleph/topology/RandomGraph.hh: generateErdosRenyiGraph, generateWeightedRandomGraph"]}
{"id": "C89", "title": "Eccentricities", "statement": "The eccentricity of a point of order zero is the largest distance to another point; of order p, the p-th root of the sum of the p-th powers of all distances, divided by the number of points. The result does not depend on the order in which the points are stored, and increases with the order p.", "quantifier": "all point clouds, distances and orders", "why_tests_cant": "relation between all orders and all permutations of the points", "anchors": ["include/aleph/containers/DataDescriptors.hh: eccentricities"]}
{"id": "C90", "title": "Truncated Gaussian density", "statement": "The density at a point is the mean over all points of the Gaussian kernel with the given bandwidth as standard deviation, where points at a distance beyond the bandwidth contribute nothing; it is between 1/n and 1 and increases with the bandwidth.", "quantifier": "all point clouds and bandwidths", "why_tests_cant": "a wrong exponent is invisible for unit bandwidth", "anchors": ["include/aleph/containers/DataDescriptors.hh: estimateDensityTruncatedGaussian"]}
{"id": "C91", "title": "Distance-to-a-measure density", "statement": "The density at a point is minus the sum of its distances to its k nearest points (including itself) divided by the number of points; no choice of k points gives a larger value, and the density decreases with k.", "quantifier": "all point clouds, all k, all behaviours of the sorting algorithm for ties", "why_tests_cant": "optimality over all subsets of points", "anchors": ["include/aleph/containers/DataDescriptors.hh: estimateDensityDistanceToMeasure"]}
{"id": "C92", "title": "Lens depth", "statement": "The lens depth of a point is the number of pairs of other points whose lens contains it, i.e. both distances are at most the distance of the pair. It depends on the order of the distances only and is at most the number of pairs of other points.", "quantifier": "all point clouds and symmetric distances", "why_tests_cant": "counts all triples of points; invariance holds for all monotone transformations of distances", "anchors": ["include/aleph/containers/DataDescriptors.hh: estimateLensDataDepth"]}
{"id": "C93", "title": "Mean-shift smoothing", "statement": "Each step of mean-shift smoothing replaces the value of a point by the mean of the previous values of its k nearest points and itself, weighted by the inverse squared distance. The values never leave the range of the input, constants are preserved, and smoothing commutes with affine changes of the values, for every number of steps.", "quantifier": "all point clouds, values, numbers of neighbours and steps", "why_tests_cant": "unbounded number of steps", "anchors": ["include/aleph/containers/MeanShift.hh: meanShiftSmoothing"]}
{"id": "C94", "title": "Correlation integral", "statement": "The correlation integral contains every positive distance between two points exactly once and in ascending order, together with the fraction of all pairs of points that are not farther apart; the fractions increase strictly and end with one.", "quantifier": "all point clouds and distances", "why_tests_cant": "counts all pairs for each distance, including ties and coinciding points", "anchors": ["include/aleph/containers/FractalDimension.hh: correlationDimensionIntegral"]}
{"id": "C95", "title": "Correlation dimension", "statement": "The correlation dimension is the slope of the line of best fit in the log-log plot of the correlation integral: exact for power laws, independent of the unit of length, undefined for fewer than two distances, with an exception for inconsistent sequences.", "quantifier": "all sequences of positive numbers", "why_tests_cant": "optimality among all lines, for all sequences", "anchors": ["include/aleph/containers/FractalDimension.hh: correlationDimension", "include/aleph/math/Statistics.hh: sampleCovariance, sampleVariance"]}
{"id": "C96", "title": "Adjacency and Laplacian matrices", "statement": "The weighted adjacency matrix of a simplicial complex has the data of the edge {u,v} in row u and column v, zero elsewhere; vertices are numbered in ascending order. The Laplacian matrix is symmetric with zero row sums and minus the weights off the diagonal. For non-negative weights it is positive semidefinite, and for positive weights the quadratic form vanishes exactly for functions that are constant along edges.", "quantifier": "all simplicial complexes and vectors", "why_tests_cant": "spectral statements range over all vectors", "anchors": ["include/aleph/geometry/HeatKernel.hh: weightedAdjacencyMatrix, weightedLaplacianMatrix"]}
{"id": "C97", "title": "Heat kernel", "statement": "The heat kernel of a complex solves the heat equation of its Laplacian matrix with the identity as initial value; it is symmetric, a semigroup in time and preserves heat. For non-negative weights it consists of probabilities for all times, and auto-diffusion decreases. Trace and determinant are those of the kernel matrix; evaluating for all vertices yields the kernel.", "quantifier": "all simplicial complexes, all times", "why_tests_cant": "identities and inequalities for all real times and all complexes", "anchors": ["include/aleph/geometry/HeatKernel.hh: HeatKernel"]}
{"id": "C98", "title": "Pseudo-inverse of the Laplacian matrix", "statement": "The function computes the Moore-Penrose inverse of the Laplacian matrix of every connected complex.", "quantifier": "all connected complexes", "why_tests_cant": "holds for all sizes or fails for all but the trivial one", "anchors": ["include/aleph/geometry/HeatKernel.hh: pinvWeightedLaplacianMatrix"]}
{"id": "C99", "title": "Bisection of complexes", "statement": "Bisecting a complex with at least two vertices yields the two subcomplexes induced by a set of vertices and by its complement, both closed under faces, in the original order of simplices; the set consists of the vertices at which the Fiedler vector is smaller than its median and has at most half of the vertices. Smaller complexes give an exception.", "quantifier": "all simplicial complexes, all valid eigensystems", "why_tests_cant": "depends on an eigenvector that is not unique; must hold for all choices", "anchors": ["include/aleph/topology/Partitions.hh: bisect"]}
{"id": "C100", "title": "Sampling interval of heat kernels", "statement": "For connected complexes with positive weights, the first eigenvalue is zero and all others are positive; the logarithmic sampling interval is a geometric sequence from 4 log 10 divided by the largest eigenvalue to 4 log 10 divided by the smallest positive eigenvalue.", "quantifier": "all connected complexes with positive weights, all numbers of samples", "why_tests_cant": "spectral gap for all connected complexes", "anchors": ["include/aleph/geometry/HeatKernel.hh: HeatKernel::logarithmicSamplingInterval, HeatKernel::setSkip"]}
{"id": "C101", "title": "Kernel density estimators", "statement": "The estimate at x is the mean of the kernel at the differences between x and the samples, divided by the bandwidth; kernels are symmetric densities, so that the estimate is non-negative and integrates to one, in every dimension.", "quantifier": "all samples, positive bandwidths, dimensions", "why_tests_cant": "integrals over the whole space", "anchors": ["include/aleph/math/KernelDensityEstimator.hh: KernelDensityEstimator, kernels"]}
{"id": "C102", "title": "Local dimension from k neighbours", "statement": "The estimate at a point is r(k)/(k (r(k+1)-r(k))), with r(k) the mean of its k smallest distances; it is undefined exactly if k is zero or the k+1 smallest distances coincide, non-negative otherwise, and does not depend on the unit of length. More neighbours than points are undefined behaviour.", "quantifier": "all point clouds and distances, all k, all behaviours of the sorting algorithm", "why_tests_cant": "for all point clouds including ties", "anchors": ["include/aleph/containers/DimensionalityEstimators.hh: estimateLocalDimensionalityNearestNeighbours"]}
{"id": "C103", "title": "Local dimension by regression over neighbours", "statement": "The estimate for kMin to kMax neighbours is the least-squares solution of r(k)/k = d (r(k+1)-r(k)) for all k with kMin <= k < kMax. Arguments may be swapped; zero is an exception.", "quantifier": "all point clouds and distances, all ranges of neighbours", "why_tests_cant": "optimality among all real numbers for all point clouds", "anchors": ["include/aleph/containers/DimensionalityEstimators.hh: estimateLocalDimensionalityNearestNeighbours (kMin, kMax)"]}
{"id": "C104", "title": "Local dimension of maximum likelihood", "statement": "The estimate at a point is the mean over the numbers k of neighbours of the dimension that maximises the likelihood of the k smallest positive distances; it is never negative and does not depend on the unit of length.", "quantifier": "all point clouds and distances, all ranges of neighbours", "why_tests_cant": "maximality among all real numbers", "anchors": ["include/aleph/containers/DimensionalityEstimators.hh: estimateLocalDimensionalityNearestNeighboursMLE"]}
{"id": "C105", "title": "Principal component analysis", "statement": "Components are orthonormal; each is a direction of largest variance among all directions orthogonal to the previous ones; the squares of the singular values are these variances, in descending order, and sum to the total variance. Translations of the data change nothing.", "quantifier": "all data sets, all valid singular value decompositions", "why_tests_cant": "optimality among all unit vectors", "anchors": ["include/aleph/math/PrincipalComponentAnalysis.hh: PrincipalComponentAnalysis"]}
{"id": "C106", "title": "Local dimension from spectral gaps", "statement": "For points with at least two coordinates there is one estimate per point: the first index of the largest gap between consecutive singular values of its k nearest points and itself. It is positive and does not exceed the dimension of any affine subspace (of positive dimension) that contains the points.", "quantifier": "all point clouds, all valid decompositions, all behaviours of the sorting algorithm", "why_tests_cant": "all affine subspaces and point clouds", "anchors": ["include/aleph/containers/DimensionalityEstimators.hh: estimateLocalDimensionalityPCA"]}
{"id": "C107", "title": "Intersection of a complex with a simplex", "statement": "Intersecting a simplicial complex with a non-empty simplex yields simplices whose faces are exactly the simplices of the complex that are faces of the given simplex; if the simplex belongs to the complex, it is the only result.", "quantifier": "all simplicial complexes and all non-empty simplices", "why_tests_cant": "The claim is about all pairs of complexes and simplices, and about the absence of further common faces.", "anchors": ["include/aleph/topology/Intersections.hh: intersect"]}
{"id": "C108", "title": "Intersection with constrained dimension", "statement": "Intersecting a simplicial complex with a simplex while looking only at large simplices yields all intersections with the simplices of the complex that are at least as large as needed.", "quantifier": "all simplicial complexes and all simplices", "why_tests_cant": "Missing results occur only for complexes with maximal simplices of lower dimension; tests use pure complexes.", "anchors": ["include/aleph/topology/Intersections.hh: intersectWithConstrainedDimension"]}
{"id": "C109", "title": "Mean of persistence diagrams", "statement": "The mean of a collection of persistence diagrams of one dimension is computed in finitely many steps; it has no points on the diagonal, stays within the range of the coordinates, its points are means of optimally assigned points, and the mean of equal diagrams is the diagram itself.", "quantifier": "all finite collections of persistence diagrams, all random choices of the first candidate", "why_tests_cant": "The result depends on a random choice and on an iteration whose termination no finite number of runs establishes.", "anchors": ["include/aleph/persistenceDiagrams/Mean.hh: mean", "include/aleph/persistenceDiagrams/Mean.hh: detail::optimalPairing"]}
{"id": "C110", "title": "Loading boundary matrices", "statement": "Loading a text yields one column per line that is neither blank nor a comment, with the sorted indices of the line, provided that each line states its dimension correctly; every other text raises an exception, and all indices are valid.", "quantifier": "all texts", "why_tests_cant": "All combinations of blank lines, comments and malformed lines.", "anchors": ["include/aleph/topology/BoundaryMatrix.hh: BoundaryMatrix::load"]}
{"id": "C111", "title": "Loading persistence diagrams", "statement": "Loading a text yields one point per line that is neither empty nor a comment, from the first two words of the line, in order; a line with fewer than two words raises an exception.", "quantifier": "all texts", "why_tests_cant": "All combinations of lines, whitespace and comments.", "anchors": ["include/aleph/persistenceDiagrams/io/Raw.hh: load"]}
{"id": "C112", "title": "Persistence diagrams in JSON format", "statement": "Writing a persistence diagram yields a valid JSON text with its dimension, Betti number, size, name, additional pairs and points; reading an array of such objects yields the diagrams, and inconsistent sizes or Betti numbers raise exceptions.", "quantifier": "all persistence diagrams, names and additional pairs; all JSON values", "why_tests_cant": "Validity of the output for all diagrams, including empty ones, and for all names.", "anchors": ["include/aleph/persistenceDiagrams/io/JSON.hh: writeJSON, readJSON"]}
{"id": "C113", "title": "Pairing of the extended persistence hierarchy", "statement": "The pairing returned with the extended persistence hierarchy consists of the zero-dimensional persistence pairs of the graph of vertices and edges of the given filtration, each once, and an entry for each unpaired vertex. For graphs it is the pairing of the calculation of connected components.", "quantifier": "all simplicial complexes in filtration order", "why_tests_cant": "The claim is about all filtrations, including those with higher-dimensional simplices in between.", "anchors": ["include/aleph/persistentHomology/ExtendedPersistenceHierarchy.hh: ExtendedPersistenceHierarchy::operator()"]}
{"id": "C114", "title": "The extended persistence hierarchy is a forest", "statement": "The children in the hierarchy are exactly the vertices whose component has finite non-zero persistence; each has one parent, there are no cycles, and for monotone functions each child descends from the first vertex of its connected component.", "quantifier": "all simplicial complexes in filtration order, all valid breadth-first searches", "why_tests_cant": "Cycles could close only after long histories of merges; absence is a statement about all histories.", "anchors": ["include/aleph/persistentHomology/ExtendedPersistenceHierarchy.hh: ExtendedPersistenceHierarchy::operator()"]}
{"id": "C115", "title": "Parents in the extended persistence hierarchy", "statement": "When a component is merged into an older one, its parent is the critical vertex that the older component absorbed last, provided that a shortest path in the interlevel set between the critical vertices of both components passes exactly two critical regions; otherwise, it is the creator of the older component.", "quantifier": "all simplicial complexes in filtration order, all valid breadth-first searches", "why_tests_cant": "Depends on the whole history of merges and on a path that the library chooses.", "anchors": ["include/aleph/persistentHomology/ExtendedPersistenceHierarchy.hh: ExtendedPersistenceHierarchy::operator(), tagEdges, makeInterlevelSet"]}
{"id": "C116", "title": "Vertices of meshes", "statement": "A vertex can be added under every ID that is not in use, and under a fresh default ID; the mesh then has exactly one more vertex and all other vertices keep their data. Using an ID twice raises an exception and changes nothing. Adding a face changes neither vertices nor data, and raises an exception for unknown vertices, leaving the mesh as it was.", "quantifier": "all histories of calls, all traversal orders of the hash map", "why_tests_cant": "depends on all histories of explicit and default IDs", "anchors": ["include/aleph/topology/Mesh.hh: Mesh::addVertex", "include/aleph/topology/Mesh.hh: Mesh::addFace", "include/aleph/topology/Mesh.hh: Mesh::vertices", "include/aleph/topology/Mesh.hh: Mesh::data"]}
{"id": "C117", "title": "Faces of meshes", "statement": "The faces reported by a mesh, and their number, are exactly the faces that were added, each with its vertices in the original order.", "quantifier": "all histories of calls, all traversal orders of the containers", "why_tests_cant": "missing faces depend on the order in which faces with common vertices were added", "anchors": ["include/aleph/topology/Mesh.hh: Mesh::faces", "include/aleph/topology/Mesh.hh: Mesh::numFaces", "include/aleph/topology/Mesh.hh: Mesh::getVertices"]}
{"id": "C118", "title": "Neighbours in meshes", "statement": "The link of a vertex consists of the vertices that are joined to it by an edge of a face; edges are found by looking at the link, and lower and higher neighbours are the neighbours with smaller and larger data.", "quantifier": "all histories of calls, all vertices", "why_tests_cant": "the traversal around a vertex depends on the order in which all faces were added", "anchors": ["include/aleph/topology/Mesh.hh: Mesh::link", "include/aleph/topology/Mesh.hh: Mesh::hasEdge", "include/aleph/topology/Mesh.hh: Mesh::getLowerNeighbours", "include/aleph/topology/Mesh.hh: Mesh::getHigherNeighbours"]}
{"id": "C119", "title": "Connected components of meshes", "statement": "The number of connected components of a mesh is the number of classes of vertices that are connected by edges of faces.", "quantifier": "all histories of calls, all traversal orders, both orders of evaluation of arguments", "why_tests_cant": "over all orders of gluing faces together", "anchors": ["include/aleph/topology/Mesh.hh: Mesh::numConnectedComponents"]}
{"id": "C120", "title": "Star of a vertex in a mesh", "statement": "The star of a vertex is the mesh of all faces that contain the vertex, with the coordinates and data of the original mesh.", "quantifier": "all histories of calls, all vertices, all traversal orders", "why_tests_cant": "the traversal around a vertex depends on the order in which all faces were added", "anchors": ["include/aleph/topology/Mesh.hh: Mesh::star", "include/aleph/topology/Mesh.hh: Mesh::getFaces"]}
{"id": "C121", "title": "Segments of the link", "statement": "For each vertex, the numbers of contiguous segments of its lower and of its upper link are the numbers of classes of consecutive neighbours that are joined by an edge; they are defined if and only if both parts of the link contain a vertex and all queries for edges succeed.", "quantifier": "all histories of calls, all vertices and data", "why_tests_cant": "counts classes of an equivalence relation for all links", "anchors": ["include/aleph/topology/MorseSmaleComplex.hh: MorseSmaleComplex::contiguousSegments"]}
{"id": "C122", "title": "Samples of spheres", "statement": "Points generated from pairs of angles are on the sphere with the given radius and centre, every point of the sphere arises in this way, the requested number of pairs of angles is generated, and they are distributed uniformly with respect to the area of the sphere.", "quantifier": "all numbers of samples, all random numbers in the unit interval, all radii and centres, all parts of the sphere", "why_tests_cant": "a statement about probabilities and about all random numbers", "anchors": ["include/aleph/geometry/SphereSampling.hh: sphereSampling", "include/aleph/geometry/SphereSampling.hh: makeSphere"]}
{"id": "C123", "title": "Samples of tori", "statement": "Points generated from pairs of angles are on the torus with the given radii, every point of the torus arises in this way; rejection sampling returns the first accepted angles, exactly as many as requested, and accepts angles according to the area of the torus.", "quantifier": "all radii, all numbers of samples, all sequences of random numbers", "why_tests_cant": "a statement about probabilities and about all random numbers", "anchors": ["include/aleph/geometry/TorusSampling.hh: torusRejectionSampling", "include/aleph/geometry/TorusSampling.hh: makeTorus"]}
{"id": "C124", "title": "Algebraic spheres", "statement": "The zeros of the polynomial given by the coefficients are the sphere with the reported centre and radius, curvatures are those of this sphere, degenerate cases have zero curvature, and answers do not depend on earlier queries.", "quantifier": "all lists of coefficients, all sequences of queries", "why_tests_cant": "over all real coefficients and all orders of queries, whose results are cached", "anchors": ["include/aleph/math/AlgebraicSphere.hh: AlgebraicSphere"]}
{"id": "C125", "title": "Points", "statement": "Points are equal if and only if they have the same coordinates; they are ordered by a strict total order that compares coordinates lexicographically; their output are the coordinates, separated by blanks.", "quantifier": "all points of all dimensions", "why_tests_cant": "order axioms are statements about all triples of points", "anchors": ["include/aleph/geometry/Point.hh: Point"]}
{"id": "C126", "title": "Formatted numbers", "statement": "Formatted numbers have the width of the maximum and denote the number; padded with zeroes, they are sorted like the numbers.", "quantifier": "all numbers, maxima and fill characters", "why_tests_cant": "over all numbers", "anchors": ["include/aleph/utilities/Format.hh: format"]}
{"id": "C127", "title": "Operators for vectors", "statement": "Sums, differences and multiples of vectors satisfy the laws of vector spaces; two sequences are close if and only if all elements are close; checks of bounds throw exceptions if and only if values are out of bounds.", "quantifier": "all vectors, scalars and tolerances", "why_tests_cant": "laws are statements about all vectors", "anchors": ["include/aleph/utilities/ContainerOperators.hh: operator*", "include/aleph/utilities/ContainerOperators.hh: operator+", "include/aleph/utilities/ContainerOperators.hh: operator-", "include/aleph/utilities/ContainerOperators.hh: allclose", "include/aleph/utilities/Values.hh: ensureRange", "include/aleph/utilities/Values.hh: ensureLarger"]}
{"id": "C128", "title": "Files of triangulations", "statement": "Reading a file in the format of lexicographic triangulations yields one complex for each block, with the simplices of the block; line breaks, whitespace and comments do not matter; malformed files raise exceptions.", "quantifier": "all texts", "why_tests_cant": "over all texts", "anchors": ["include/aleph/topology/io/LexicographicTriangulation.hh: LexicographicTriangulationReader"]}
{"id": "C129", "title": "Pajek files", "statement": "Reading a file in Pajek format yields the declared vertices and the edges with their weights, in the order of the file, and the labels of the vertices; duplicate or missing vertices and malformed lines raise exceptions.", "quantifier": "all texts, all previously stored labels", "why_tests_cant": "over all texts", "anchors": ["include/aleph/topology/io/Pajek.hh: PajekReader"]}
{"id": "C130", "title": "Bipartite adjacency matrices", "statement": "Reading a matrix yields its weighted bipartite graph: a vertex for each row and column, an edge for each entry with its value as weight, and vertices with the minimum of the matrix, the minimum of their edges, or the minimum in absolute value, according to the options; the complex is reported in filtration order; empty lines and comments are ignored.", "quantifier": "all matrices and texts, all options", "why_tests_cant": "over all matrices and texts", "anchors": ["include/aleph/topology/io/BipartiteAdjacencyMatrix.hh: BipartiteAdjacencyMatrixReader"]}
{"id": "C131", "title": "Output of lines and points", "statement": "The output of a complex with coordinates is a text of two blocks that are separated by two empty lines: a line for every vertex, with its coordinates and, on request, its number; and the lines of both end points of every edge, followed by an empty line. An exception is raised if and only if a vertex has fewer than two coordinates; different points and lines yield different texts.", "quantifier": "all complexes and coordinates, all representations of numbers without whitespace", "why_tests_cant": "over all complexes and coordinates", "anchors": ["include/aleph/topology/io/LinesAndPoints.hh: LinesAndPoints"]}
{"id": "C132", "title": "Spectra", "statement": "Reading a spectrum yields the superlevel set filtration of its intensities: a path with a vertex for every sample, edges with the minimum of both intensities, in descending order with faces first. With normalisation, intensities are divided by their total, so that they sum up to one. Values and intensities of the last file can be queried by index.", "quantifier": "all texts, all previously stored values", "why_tests_cant": "over all texts and histories of calls", "anchors": ["include/aleph/topology/io/FlexSpectrum.hh: FlexSpectrumReader"]}
{"id": "C133", "title": "Sparse adjacency matrices", "statement": "Reading a dataset of graphs yields one complex per graph, in ascending order of their numbers: the nodes that the indicator assigns to the graph and the edges between them, with the selected attributes as data, in filtration order; labels are those of the files. The result does not depend on the order of unordered containers. Edges between different graphs, unknown nodes, malformed lines and missing files raise exceptions; files that are not requested are not required.", "quantifier": "all datasets (texts of all files), all options, all traversal orders of an unordered set", "why_tests_cant": "over all texts and traversal orders", "anchors": ["include/aleph/topology/io/SparseAdjacencyMatrix.hh: SparseAdjacencyMatrixReader"]}
{"id": "C134", "title": "GML files", "statement": "Reading a GML file yields the nodes and edges of the file in their order, with their weights; edges without a weight get the value of a function of the weights of both end points. Different nodes are different vertices: numbers keep their value, other identifiers are numbered in lexicographical order. Attributes of nodes and edges can be queried afterwards. Duplicate nodes, edges to unknown nodes and malformed files raise exceptions.", "quantifier": "all texts, all functions for weights, all conversions of texts to numbers", "why_tests_cant": "over all texts", "anchors": ["include/aleph/topology/io/GML.hh: GMLReader"]}
{"id": "C135", "title": "Output of GML files", "statement": "The output of a complex is a GML file with a node for every vertex and an edge for every edge of the complex, in their order, with the labels of the vertices and, on request, their data, and with the data of edges as weights. Reading the file yields the same graph with the same data and labels. An exception is raised only if a label is missing.", "quantifier": "all complexes, all labels, all representations of data", "why_tests_cant": "over all complexes and labels", "anchors": ["include/aleph/topology/io/GML.hh: GMLWriter", "include/aleph/topology/io/GML.hh: GMLReader"]}
{"id": "C136", "title": "Structured grids in VTK files", "statement": "Reading a structured grid yields a complex with a vertex for every point, numbered with the first coordinate varying fastest, and an edge for every two points whose coordinates differ by one in exactly one direction; the data of vertices are the values of the file, the data of edges the value of a function of both values. The complex is closed under faces. The name and type of scalars can be queried. Files with another format, a wrong number of points, several components, missing values or another lookup table raise exceptions.", "quantifier": "all texts, all grid dimensions, all functions for weights", "why_tests_cant": "over all texts and dimensions", "anchors": ["include/aleph/topology/io/VTK.hh: VTKStructuredGridReader"]}
{"id": "C137", "title": "Triangular meshes in PLY files", "statement": "Reading a mesh yields a complex with all vertices and all faces of its triangles; the data of a vertex is its value of the selected property, or zero if there is none, and the data of every other simplex is the maximum of the data of its vertices. The complex is closed under faces and in filtration order. Other formats, polygons with another number of vertices, unknown types and missing lines raise exceptions.", "quantifier": "all texts, all headers, all selected properties", "why_tests_cant": "over all texts and headers", "anchors": ["include/aleph/topology/io/PLY.hh: PLYReader"]}
{"id": "C138", "title": "Names of files", "statement": "The name of a file is the part of its path after the directory, without slashes at its end. It consists of a stem and an extension, which starts with the last dot; names without dots and the names of special directories have no extension. Directories and slashes at the end have no influence. The directory for temporary files is the value of the first of several environment variables that is set, or else a default of the system.", "quantifier": "all paths, all environments", "why_tests_cant": "over all paths and environments", "anchors": ["include/aleph/utilities/Filesystem.hh: basename, stem, extension, tempDirectory"]}
{"id": "C139", "title": "Reading complexes from files of any format", "statement": "The extension of a file determines how it is read; the complex is the one of the reader for this format. Its weights are consistent and it is sorted. Labels are stored at the indices of their vertices. Files that cannot be opened raise exceptions.", "quantifier": "all names of files, all contents, all attributes, all functors, all sequences of files", "why_tests_cant": "over all texts and names", "anchors": ["include/aleph/topology/io/SimplicialComplexReader.hh: SimplicialComplexReader"]}
{"id": "C140", "title": "Output of pictures for TikZ", "statement": "The output of a complex is a TikZ picture: every vertex is declared at the position of its first two coordinates and is drawn as a dot and, on request, as a ball; triangles, on request, and edges follow, in their order. All positions are declared before they are used if and only if the complex contains the vertices of what is drawn. Vertices with too few coordinates raise an exception. Every option changes one aspect of the picture.", "quantifier": "all complexes, all containers of coordinates, all options that can be set, all representations of numbers", "why_tests_cant": "over all complexes and options", "anchors": ["include/aleph/topology/io/TikZ.hh: TikZ"]}
{"id": "C141", "title": "Estimation of curvatures", "statement": "The estimated curvature of a point is the mean curvature of a sphere or plane that fits its nearest neighbours best, with respect to smooth weights that decrease with the distance. There is one curvature for every point; curvatures are not negative. For points of a sphere with radius r, they are 1/r. Normals have no influence.", "quantifier": "all point clouds of all dimensions, all numbers of neighbours, all orders of eigenvalues and all choices of eigenvectors", "why_tests_cant": "over all point clouds; the order of eigenvalues is not specified", "anchors": ["include/aleph/geometry/TangentSpace.hh: TangentSpace"]}
{"id": "C142", "title": "Callbacks of zero-dimensional persistence", "statement": "A functor that is passed to the calculation of zero-dimensional persistence is informed about each vertex once, in ascending order, then about each edge that joins two components, in the order of the filtration, with the oldest vertices of both components, the weights at which the younger one has been created and destroyed, and the vertices of the edge, then about each remaining component once. It has no influence on the diagram and the pairing; an exception ends the calculation.", "quantifier": "all filtered complexes, all functors", "why_tests_cant": "over all complexes and all functors", "anchors": ["include/aleph/persistentHomology/ConnectedComponents.hh: calculateZeroDimensionalPersistenceDiagram"]}
{"id": "C143", "title": "Relevance of edges", "statement": "The program reports one line for each edge that joins two components of the graph, in the order of weights, with its vertices, and the ratio of the sizes of the smaller and the larger component. Missing labels raise an exception.", "quantifier": "all graphs with consistent weights, all lists of labels", "why_tests_cant": "over all graphs", "anchors": ["src/tools/relevant_edges.cc: SizeFunctor, main"]}
{"id": "C144", "title": "Communities of cliques", "statement": "For a threshold and a maximum, the program writes a JSON text that contains, for every number of vertices from two to the maximum plus one, the clique communities of the graph of edges that are not heavier than the threshold: each clique occurs once; cliques are listed together if and only if they are connected by a chain of cliques such that neighbours share all vertices but one.", "quantifier": "all graphs, all thresholds, all maxima, all combinations of options, all labels", "why_tests_cant": "over all graphs and options; traversal orders are not specified", "anchors": ["src/tools/clique_communities_to_json.cc: main, formatSimplex"]}
{"id": "C145", "title": "Persistence of clique communities", "statement": "For each number k up to a maximum, the program follows the communities of cliques with k+1 vertices while the weights of edges increase. It reports, for each community of positive persistence and each community that persists, the weight of its creation, the weight at which it is merged into an older community (or twice the largest weight) and its number of cliques, and for each vertex the sum of the squares of the persistence of all these communities that contain it, and their number. Each k has a file of its own.", "quantifier": "all graphs, all maxima and minima, all combinations of options, all labels", "why_tests_cant": "over all graphs and options", "anchors": ["src/tools/clique_persistence_diagram.cc: CliqueCommunityInformationFunctor, formatOutput, formatLabel, main"]}
{"id": "C146", "title": "Scalar fields in HDF5 files", "statement": "Reading a two-dimensional field of floating point numbers yields its triangulated grid: a vertex for every value in the order of the file, edges between values that are adjacent in a row, in a column or along a diagonal, and two triangles for each square. Vertices carry the values of the file, other simplices the value of a function of the values of their vertices, by default their maximum. The complex is closed under faces. Files, groups, data sets and types that are not supported raise exceptions.", "quantifier": "all fields, all types of numbers, all orders of bytes, all functions for weights", "why_tests_cant": "over all dimensions, values and orders of bytes", "anchors": ["include/aleph/topology/io/HDF5.hh: HDF5SimpleDataSpaceReader"]}
{"id": "C147", "title": "Graphs in GraphML files", "statement": "Reading a GraphML file yields the first graph of the file: a vertex for every node, numbered from zero by the order of the identifiers, and an edge for every edge. The data of a node or an edge is the value of the attribute that is set for weights, zero if there is none. Edges without a weight obtain one from the weights of their nodes by means of a functor, by default their maximum. Indices and names of attributes can be queried afterwards. Files that are not as required raise exceptions.", "quantifier": "all documents, all settings, all functors", "why_tests_cant": "over all documents; sorting may order equivalent nodes arbitrarily", "anchors": ["include/aleph/topology/io/GraphML.hh: GraphMLReader"]}
{"id": "C148", "title": "Normalization of step functions", "statement": "Normalizing a step function to a range [a,b] preserves its intervals and the order of its values; all values of the new function are in [a,b], and b is attained.", "quantifier": "all step functions, all ranges", "why_tests_cant": "over all step functions and ranges", "anchors": ["include/aleph/math/StepFunction.hh: normalize"]}
{"id": "C149", "title": "Levels and harmony of cover trees", "statement": "The points of a cover tree can be listed by level, or with their levels: every point occurs with the level of its node, and each one except for the root is covered by a point of the next higher level. The check for harmony reports whether the distances of a point to the nodes of its path that cover it are strictly decreasing; it may replace the root, but the tree remains a cover tree of the same points, and its level does not increase.", "quantifier": "all metrics, all cover trees, all points", "why_tests_cant": "over all sequences of insertions and all metrics", "anchors": ["include/aleph/geometry/CoverTree.hh: CoverTree::getNodesByLevel, CoverTree::nodesToLevel, CoverTree::isHarmonic"]}
{"id": "C150", "title": "Matrix of topological distances", "statement": "For a list of files with persistence diagrams, the program writes a symmetric matrix with one row per data set; a data set consists of all files whose names differ in the dimension only. The entry of two data sets is the root of the sum of the powers of the distances of their diagrams, taken over all dimensions, for the distance that the options select: Hausdorff, Wasserstein or bottleneck distance, or distance of indicator functions or envelopes; on request, it is the value of a kernel. Points on the diagonal, unpaired points and duplicates are removed on request. The order in which entries are calculated has no influence.", "quantifier": "all lists of files, all diagrams, all combinations of options, all schedules of the parallel loop", "why_tests_cant": "over all files, options and schedules", "anchors": ["src/tools/topological_distance.cc: main, distancePIF, distanceEnvelopeFunctions, persistenceDiagramDistance, postprocess, storeMatrix"]}
{"id": "C151", "title": "Betti numbers of graphs", "statement": "For a list of GML files, the program prints one line for each identifier, in ascending order: the identifier, which is the first number in the name of the file, and the number of independent cycles of the graph in the file (the dimension of the space of all sets of edges that meet each vertex an even number of times). Files that cannot be read and names without a number raise exceptions.", "quantifier": "all lists of files, all names and contents", "why_tests_cant": "over all graphs, names and sequences of files", "anchors": ["src/tools/betti_numbers.cc: main"]}
{"id": "C152", "title": "Statistics of persistence diagrams", "statement": "For a list of files with persistence diagrams, the program prints a table in CSV format with one line per file, in the order of the arguments: the name and the dimension that the name of the file states, the number of points, the sum of the powers of all persistence values and its quotient by the number of points, the largest persistence value, and the mean. On request, points that contain a given value are ignored. Files that cannot be loaded raise exceptions.", "quantifier": "all lists of files, all names and contents, all options", "why_tests_cant": "over all diagrams, names and options", "anchors": ["src/tools/persistence_diagram_statistics.cc: parseFilename, main"]}
{"id": "C153", "title": "Signatures of persistence diagrams", "statement": "For each file with a persistence diagram, the program prints the signature of the diagram: for all pairs of points, the smallest one among their distance and their persistence values, in descending order. The signature does not depend on the order of points, and its entries change by at most twice the bottleneck distance if the diagram changes. On request, points of small persistence are removed first, coordinates are mapped to the unit interval, and only a given number of values is printed, with zeros instead of missing ones.", "quantifier": "all lists of files, all diagrams, all options", "why_tests_cant": "over all diagrams, pairs of diagrams and options", "anchors": ["src/tools/make_signature.cc: filterDiagram, normalizeDiagram, makeSignature, printSignature, main"]}
{"id": "C154", "title": "Intersection homology of triangulations", "statement": "For a file with lists of simplices, the program writes a JSON text with two parts. The first one contains, for each list, the Betti numbers and the Euler characteristic of the complex of all faces. The second one contains, for each list and each perversity p with -1 <= p(k) <= k-1, the Betti numbers of intersection homology of the complex with its skeletons as strata.", "quantifier": "all files with triangulations of all dimensions, all traversal orders that are not specified", "why_tests_cant": "over all complexes and files", "anchors": ["src/tools/wicked_triangulations.cc: Signature, makeSignature, getPerversities, main"]}
{"id": "C155", "title": "Stability of persistence diagrams", "statement": "If the data of two complexes with the same simplices differs by at most e, then the points of their persistence diagrams correspond to each other one by one, such that creation and destruction differ by at most e; points that are never destroyed correspond to such points. Hence the Bottleneck distance of the diagrams is at most e, and the calculated Wasserstein distance is bounded by the number of points. This holds for sublevel and superlevel sets.", "quantifier": "all pairs of filtered complexes with the same simplices, all data, all algorithms, representations and dualization flags", "why_tests_cant": "a statement about all pairs of functions and all sizes; small perturbations change the order of the simplices in exponentially many ways", "anchors": ["include/aleph/persistentHomology/Calculation.hh: calculatePersistenceDiagrams", "include/aleph/persistenceDiagrams/Calculation.hh: makePersistenceDiagrams", "include/aleph/persistenceDiagrams/distances/Wasserstein.hh: wassersteinDistance", "include/aleph/persistenceDiagrams/PersistenceDiagram.hh: removeDiagonal, removeUnpaired"]}
{"id": "C156", "title": "Persistence diagrams of functions on an interval", "statement": "Each line of the input files is a function. For every line, in the order of the input, the tool writes a diagram that, for all thresholds a <= b, counts the maximal runs of consecutive positions with values of at most b that contain a value of at most a. The essential point is closed with the maximum of the function; for superlevel sets all of this is reversed. With normalization all values are scaled by the range of the function; with condensing, the minimum, the maximum and the mean of the persistence values are written instead. If two functions differ by at most e, so do the points of their diagrams.", "quantifier": "all input files, all lines and values, all option lists, both kinds of level sets", "why_tests_cant": "over all functions and thresholds; comparing all runs of consecutive positions with the diagram is not possible for samples only", "anchors": ["src/tools/function_analysis.cc: closeDiagram, normalize, main", "include/aleph/topology/io/Function.hh: loadFunctions", "include/aleph/persistentHomology/Calculation.hh: calculatePersistenceDiagrams"]}
{"id": "C157", "title": "Minimum spanning tree from a distance matrix", "statement": "The Python function `vietorisRips1d` for a distance matrix of n points reports n-1 edges (pairs of indices of the matrix) that form a minimum spanning tree of the complete graph: they connect all points, no spanning tree has a smaller sum of weights, and for any two points the tree contains a path whose longest edge is as short as possible. The array may have any layout in memory (row-major, transposed, strided). Only arrays that are not two-dimensional, or not of the right type, are rejected.", "quantifier": "all n, all symmetric matrices, all strides, all tie breaking", "why_tests_cant": "over all matrices, sizes and memory layouts; minimality compares with all spanning trees", "anchors": ["bindings/python/aleph.cc: vietorisRips1d", "include/aleph/persistentHomology/Calculation.hh: calculatePersistencePairing"]}
{"id": "C158", "title": "Edges and cycles from a distance matrix", "statement": "The Python function `vietorisRips2d` reports the edges of a minimum spanning tree of the points together with, for every one-dimensional feature, its creating edge and the longest edge of the triangle that destroys it.", "quantifier": "all n, all symmetric matrices, all strides, all tie breaking", "why_tests_cant": "over all matrices and sizes", "anchors": ["bindings/python/aleph.cc: vietorisRips2d", "include/aleph/persistentHomology/Calculation.hh: calculatePersistencePairing"]}
{"id": "C159", "title": "Persistence diagrams of a distance matrix", "statement": "The Python function `vietorisRips` for a distance matrix of n points and a dimension d reports diagrams that count, for all thresholds a <= b, the homology classes of the Vietoris-Rips complex at a that are alive in the complex at b. If two matrices differ by at most e in each entry, the points of the diagrams correspond to each other and differ by at most e.", "quantifier": "all n >= 2, all symmetric matrices, all thresholds, all dimensions, all strides", "why_tests_cant": "over all matrices, thresholds and dimensions", "anchors": ["bindings/python/aleph.cc: vietorisRips", "include/aleph/geometry/RipsExpander.hh: operator(), assignMaximumWeight", "include/aleph/persistentHomology/Calculation.hh: calculatePersistenceDiagrams"]}
{"id": "C160", "title": "Zero-dimensional diagrams of weight matrices", "statement": "The Python function `calculateZeroDimensionalPersistenceDiagramOfMatrix` treats rows and columns of a matrix as the vertices of a complete bipartite graph, with the entries as weights of edges. Its diagram consists of the weights of the edges of a maximum spanning tree (by default) or of a minimum spanning tree, except for weights equal to that of the vertices, and of one further point for the graph itself, which gets the value given by the user. The function that also returns a pairing reports the same point for each of its pairs.", "quantifier": "all matrices with at least one row and column, all weights of vertices, all layouts in memory, all tie breaking; for the pairing, all filtered complexes", "why_tests_cant": "over all matrices and all spanning trees", "anchors": ["bindings/python/aleph.cc: calculateZeroDimensionalPersistenceDiagramOfMatrix, calculateZeroDimensionalPersistenceDiagramAndPairing", "include/aleph/persistentHomology/ConnectedComponents.hh: calculateZeroDimensionalPersistenceDiagram"]}
{"id": "C161", "title": "Persistence diagrams of arrays of points", "statement": "The Python function `calculatePersistenceDiagrams` for a two-dimensional array, whose rows are points, reports diagrams that count, for all scales, the persistent homology classes of the Vietoris-Rips complexes of the points, for every layout of the array in memory.", "quantifier": "all arrays, all scales, thresholds and dimensions", "why_tests_cant": "over all arrays, layouts and scales", "anchors": ["bindings/python/aleph.cc: calculatePersistenceDiagrams", "include/aleph/geometry/VietorisRipsComplex.hh: buildVietorisRipsComplex", "include/aleph/persistentHomology/Calculation.hh: calculatePersistenceDiagrams"]}
{"id": "C162", "title": "Persistent homology of connectivity matrices", "statement": "For each file with a connectivity matrix, the program reports the persistence diagrams of the graph of its entries that are not zero, filtered such that strong connections come first: the weight of an edge is the largest entry minus its own. In dimension zero, a connected graph has one unpaired point, and the other points are the weights of the edges of a minimum spanning tree. The order of rows and columns has no influence. The output is a JSON object with all diagrams of all files; infinite values are replaced on request. Invalid options and files raise exceptions.", "quantifier": "all lists of files, all matrices, all options", "why_tests_cant": "over all matrices, graphs, spanning trees and options", "anchors": ["src/tools/connectivity_matrix_analysis.cc: main", "include/aleph/topology/io/AdjacencyMatrix.hh: AdjacencyMatrixReader", "include/aleph/topology/SimplicialComplex.hh: sort", "include/aleph/persistenceDiagrams/io/JSON.hh: writeJSON"]}
{"id": "C163", "title": "Entropies of persistence diagrams in files", "statement": "The program prints one line for each file, in the order of its arguments: the entropy of nearest neighbours, the entropy of a grid of 20 \u00d7 20 cells, and the persistent entropy of the persistence diagram in the file, separated by tabs. Files that cannot be loaded raise an exception, and without files the program fails.", "quantifier": "all lists of files with finite diagrams", "why_tests_cant": "over all lists of files and all diagrams", "anchors": ["src/tools/persistence_diagram_entropies.cc: main", "include/aleph/persistenceDiagrams/Entropy.hh: persistentEntropy, nearestNeighbourAreaEntropy, gridEntropy", "include/aleph/persistenceDiagrams/io/Raw.hh: load"]}
{"id": "C164", "title": "Persistent homology of networks", "statement": "For a weighted graph, the program reports, for each dimension below that of the clique complex (expanded up to the given dimension), a persistence diagram without points on the diagonal that counts, for all thresholds a <= b, the homology classes of the complex of all cliques with weights of at most a that are alive at b; the weight of a clique is the largest weight of its vertices and edges. Weights are mapped to [0,1] and inverted on request, and the weights of nodes can be given in a file. The output for each diagram states the name of the file, the dimension, the number of points and the Betti number, followed by the points; it is written to standard output, separated by two empty lines, or to one file for each dimension. On request, infinite values are replaced by a multiple of the largest weight. The format of the graph is determined by the extension of the file. Invalid options and files raise exceptions.", "quantifier": "all graphs, all weights, all dimensions, all combinations of options, all names of files", "why_tests_cant": "over all graphs, thresholds, options and names", "anchors": ["examples/network_analysis.cc: main, formatOutput", "include/aleph/geometry/RipsExpander.hh: operator(), assignMaximumWeight, assignMaximumData", "include/aleph/persistentHomology/Calculation.hh: calculatePersistenceDiagrams"]}
{"id": "C165", "title": "Persistent homology of point clouds", "statement": "For a file with points and a threshold, the program reports, for each dimension below that of the Vietoris-Rips complex, a persistence diagram that counts, for all scales a <= b below the threshold, the homology classes of the Vietoris-Rips complex at a that are alive at b, without points on the diagonal (unless they are kept). In dimension zero there is one point per point of the data if the diagonal is kept. The dimension of simplices is limited by an argument; by default, it is one more than that of the points. On request, all values are divided by the largest distance of two points and infinite values are replaced by one, and only the last diagram is reported. Invalid arguments and files that cannot be read are reported as errors.", "quantifier": "all point clouds, all thresholds and dimensions, all combinations of options", "why_tests_cant": "over all point clouds, scales and options", "anchors": ["examples/vietoris_rips.cc: main", "include/aleph/geometry/VietorisRipsComplex.hh: buildVietorisRipsComplex", "include/aleph/geometry/BruteForce.hh: radiusSearch", "include/aleph/containers/PointCloud.hh: load", "include/aleph/geometry/distances/Euclidean.hh: operator()"]}
{"id": "C166", "title": "Persistent homology of images", "statement": "For a text file that contains the rows of an image with at least two pixels, the program reports persistence diagrams without points on the diagonal: for all thresholds a <= b, they count the homology classes of the pixels with values of at most a (each square of four pixels is divided into two triangles) that are alive at b. In dimension zero these are the regions of neighbouring pixels; there is exactly one region that persists. All values of points are values of pixels. For superlevel sets everything is reversed; the last option about levels counts. Each diagram is written as one line for each point, and is followed by an empty line. Missing arguments, files that cannot be opened and lines of different lengths are reported as errors.", "quantifier": "all images of all sizes, all thresholds, all lists of options", "why_tests_cant": "over all images, thresholds and regions", "anchors": ["examples/image_analysis.cc: main", "include/aleph/topology/io/Matrix.hh: MatrixReader", "include/aleph/persistentHomology/Calculation.hh: calculatePersistenceDiagrams"]}
{"id": "C167", "title": "Persistent homology of witness complexes", "statement": "For a file with points, the program chooses a fraction of the points as landmarks (by default ten percent, rounded down), either the first ones of a random order or such that each landmark is as far away from those before it as possible. It reports, for each dimension below that of the witness complex, a persistence diagram without points on the diagonal that counts, for all scales a <= b, the homology classes of the witness complex at a that are alive at b. The dimension of simplices can be limited by an optional argument. The number nu of the nearest landmarks, the radius, the fraction and the strategy are set by options. Invalid arguments are reported as errors.", "quantifier": "all point clouds, all random choices, all scales, all lists of options", "why_tests_cant": "over all point clouds, random choices and scales", "anchors": ["examples/witness_complex.cc: main", "include/aleph/geometry/WitnessComplex.hh: buildWitnessComplex, generateRandomLandmarks, generateMaxMinLandmarks", "include/aleph/persistentHomology/Calculation.hh: calculatePersistenceDiagrams"]}
{"id": "C168", "title": "Persistent homology of structured grids", "statement": "For a VTK file with a structured grid that has at least two points and a value for each point, the program reports a persistence diagram without points on the diagonal. For all thresholds a <= b, it counts the regions of neighbouring points with values of at most b that contain a point with a value of at most a, that is, the classes of the homology of dimension zero; all values of points of the diagram are values of the grid. For superlevel sets everything is reversed; the last option about levels counts. The diagram is written as one line for each point, followed by an empty line. Missing arguments, files that cannot be opened and files with too few values (at most one) are reported as errors.", "quantifier": "all grids of all sizes, all thresholds, all lists of options", "why_tests_cant": "over all grids, thresholds and regions", "anchors": ["examples/vtk.cc: main", "include/aleph/topology/io/VTK.hh: VTKStructuredGridReader", "include/aleph/topology/filtrations/Data.hh: Data", "include/aleph/persistentHomology/Calculation.hh: calculatePersistenceDiagrams"]}
{"id": "C169", "title": "Persistent homology of triangular meshes", "statement": "For a PLY file with a triangular mesh, the program reports persistence diagrams of dimensions zero and one without points on the diagonal. For all thresholds a <= b, they count the homology classes of the simplices all of whose vertices have values of at most a that are alive at b; the values are those of a property of the vertices, by default of the coordinate z. In dimension zero these are the regions of adjacent vertices. All values of points are values of vertices. For superlevel sets everything is reversed; the last option about levels counts. Each diagram is written as one line for each point, followed by two empty lines. Missing arguments and files that cannot be opened are reported as errors.", "quantifier": "all meshes, all properties, all thresholds, all lists of options", "why_tests_cant": "over all meshes, thresholds and regions", "anchors": ["examples/ply.cc: main", "include/aleph/topology/io/PLY.hh: PLYReader", "include/aleph/topology/SimplicialComplex.hh: recalculateWeights, sort", "include/aleph/persistentHomology/Calculation.hh: calculatePersistenceDiagrams"]}
{"id": "C170", "title": "Degree filtrations of graphs", "statement": "For a file with a list of edges, the tool writes one file per dimension with the persistence diagram of the graph (or of its clique complex up to the given dimension) under the degree filtration: for all thresholds a <= b, the points count the homology classes of the cliques whose vertices have degrees of at most a that are alive at b. With the option for it, all vertices are present from the start; with another one, the classes of the highest dimension are included. Each line of a file is a point; unpaired points end at a multiple of the largest degree unless the factor is zero. Points of dimension zero are not on the diagonal.", "quantifier": "all edge lists, all options, all dimensions and directories", "why_tests_cant": "over all graphs and thresholds", "anchors": ["src/tools/graph_analysis.cc: main", "include/aleph/topology/filtrations/Degree.hh: degrees", "include/aleph/geometry/RipsExpander.hh: assignMaximumData", "include/aleph/topology/io/EdgeLists.hh: EdgeListReader"]}
{"id": "C171", "title": "Persistent homology of point clouds by eccentricity", "statement": "For a file with points, the program reports persistence diagrams, without points on the diagonal, for each dimension below that of the Vietoris-Rips complex for the given distance and largest dimension. Every point has a value between zero (largest eccentricity of the given order) and one (least eccentricity), linear in its eccentricity. For all thresholds a <= b, the points of diagrams count the homology classes of the simplices all of whose vertices have values of at most a that are alive at b; with the argument u or U, everything is reversed. All values in diagrams are values of points. The output for each diagram has a header with the name of the file, the dimension and the number of points. Missing arguments and unreadable files are reported.", "quantifier": "all point clouds, distances, dimensions, orders and arguments", "why_tests_cant": "over all point clouds and thresholds", "anchors": ["examples/vietoris_rips_eccentricity.cc: main", "include/aleph/containers/DataDescriptors.hh: eccentricities", "include/aleph/geometry/VietorisRipsComplex.hh: buildVietorisRipsComplex", "include/aleph/topology/filtrations/UpperStar.hh: UpperStar", "include/aleph/topology/filtrations/LowerStar.hh: LowerStar"]}
{"id": "C172", "title": "Reduction of rectangular matrices", "statement": "The algorithm for rectangular matrices, whose columns may contain indices of rows that are not indices of columns, terminates and reduces the matrix: each column becomes the sum of itself and of previous columns, no two columns have the same maximum index, and these indices are the persistence pairs.", "quantifier": "all matrices with sorted columns, all representations", "why_tests_cant": "over all matrices", "anchors": ["include/aleph/persistentHomology/algorithms/Standard.hh: StandardRectangular"]}
{"id": "C173", "title": "Random graphs as files", "statement": "The program writes a graph in GML format that has the given number of vertices (by default 100). Two vertices are adjacent if and only if the random number for this pair is below the given probability (by default 0.25). With the option for weights, the number of random numbers below the probability before the first one that is not is the weight of the pair, and pairs without such numbers are not adjacent (if all random numbers are below the probability, then the program does not end). The last option of each kind counts, and invalid numbers raise an exception. Reading the text yields the graph.", "quantifier": "all sequences of random numbers, all options", "why_tests_cant": "over all sequences of random numbers and all graphs", "anchors": ["examples/create_random_graph.cc: main", "include/aleph/topology/RandomGraph.hh: generateErdosRenyiGraph, generateWeightedRandomGraph", "include/aleph/topology/io/GML.hh: GMLWriter"]}
{"id": "C174", "title": "Persistence diagrams of functions in files", "statement": "For a file with the values of a function on a line, the program writes the persistence diagram of its sublevel sets; it fails without arguments, and for files that cannot be opened or contain no values.", "quantifier": "all files with numbers", "why_tests_cant": "over all functions", "anchors": ["examples/1D.cc: main", "include/aleph/topology/io/Function.hh: loadFunction", "include/aleph/persistentHomology/Calculation.hh: calculatePersistenceDiagram"]}
{"id": "C175", "title": "Random persistence diagrams", "statement": "The program creates the given number of diagrams and, on request, writes each of them to a file of its own. By default a diagram consists of the given number of random points in the unit square, none of which is below the diagonal. With options for shapes, the last of which counts, a diagram is that of the Vietoris-Rips complex of as many points in a box, on a sphere or on a torus: it counts, for all scales a <= b below the threshold, the homology classes at a that are alive at b; without points on the diagonal. For boxes there is a file for each dimension below that of the complex; for spheres and tori only the diagram of dimension one is written. Without the option for the output nothing is written, and invalid numbers raise an exception.", "quantifier": "all sequences of random numbers, all options", "why_tests_cant": "over all sequences of random numbers, all point clouds and all scales", "anchors": ["examples/create_persistence_diagrams.cc: main, createRandomPersistenceDiagram, createRandomBoxPersistenceDiagrams, createRandomTorusPersistenceDiagram, createRandomSpherePersistenceDiagram", "include/aleph/geometry/SphereSampling.hh", "include/aleph/geometry/TorusSampling.hh", "include/aleph/geometry/VietorisRipsComplex.hh"]}
{"id": "C176", "title": "Distributions of distances and degrees of point clouds", "statement": "For a file with points, the program writes a JSON object with the squared distances of all pairs of points, and, if a positive threshold is given, with two further lists that contain, for each point, the number of other points whose distance is below the threshold, and the sum of these distances. The last options determine distance (Euclidean or Manhattan) and threshold. Wrong arguments and files with lines of different lengths raise an exception; files that cannot be opened and unknown distances result in an empty object.", "quantifier": "all files with points, both distances, all thresholds", "why_tests_cant": "over all point clouds", "anchors": ["src/tools/rips_distributions.cc: main, pairwiseDistances, calculateDegrees, containerAsJSON"]}
{"id": "C177", "title": "Persistence indicator functions as files", "statement": "For each of the given persistence diagrams, the program writes a file whose name consists of the given directory, the given prefix and the name of the diagram. It contains the function that counts, for each argument, the intervals of finite points of the diagram that contain it, as two lines for each interval of constancy; reading this text again yields the same function. Files of different diagrams do not overwrite each other. On request, the program writes the mean of all functions to a further file. Files that are not diagrams raise an exception.", "quantifier": "all lists of files, all options", "why_tests_cant": "over all diagrams", "anchors": ["src/tools/persistence_indicator_function.cc: main", "include/aleph/math/StepFunction.hh: operator<<, operator>>", "include/aleph/persistenceDiagrams/PersistenceIndicatorFunction.hh: persistenceIndicatorFunction"]}
{"id": "C178", "title": "Persistent homology of point clouds by data descriptors", "statement": "For a file with points, the tool writes a JSON object with a persistence diagram, without points on the diagonal, for each dimension below that of the Vietoris-Rips complex for the given scale and largest dimension (by default, one more than the dimension of the points). For all thresholds a <= b, a diagram counts the homology classes of the simplices all of whose vertices have values of at most a that are alive at b. The value of a point is the chosen descriptor (density, eccentricity or Gaussian), subtracted from its maximum and scaled to the unit interval on request. Points at infinity can be removed. The last option of each kind counts. Missing and wrong arguments and malformed files are reported.", "quantifier": "all point clouds, descriptors, scales, dimensions and lists of options", "why_tests_cant": "over all point clouds and thresholds", "anchors": ["src/tools/point_cloud_data_descriptors.cc: main, calculateDataDescriptor, normalizeValues, invertValues", "include/aleph/containers/DataDescriptors.hh", "include/aleph/geometry/RipsExpander.hh: assignMaximumData", "include/aleph/persistenceDiagrams/io/JSON.hh: writeJSON"]}
{"id": "C179", "title": "Degree filtrations of collections of graphs", "statement": "For a collection of graphs in the usual format of sparse adjacency matrices, the tool writes files with the persistence diagrams of dimension zero and one of each graph, and another one with the labels of the graphs. For all thresholds a <= b, a diagram counts the homology classes of the nodes and edges with weights of at most a that are alive at b. The value of a node is its degree, divided by the largest degree of its graph on request; the weight of an edge is the larger value of its nodes, or their sum on request. Unpaired points end at the largest degree of any graph (or one) times a factor that is two by default. The names of files contain the index of the graph, such that their lexicographic order is that of the collection. On request, superlevel sets are used instead, graphs are expanded to clique complexes, and the closeness centralities of nodes, and the graphs themselves, are written to further files.", "quantifier": "all collections of graphs with consistent files, all options", "why_tests_cant": "over all collections of graphs and all options", "anchors": ["src/tools/sparse_adjacency_matrices.cc: main, closenessCentrality", "include/aleph/topology/io/SparseAdjacencyMatrix.hh: SparseAdjacencyMatrixReader", "include/aleph/topology/filtrations/Degree.hh: degrees", "include/aleph/geometry/RipsExpander.hh: assignMaximumData, assignData", "include/aleph/topology/FloydWarshall.hh: floydWarshall", "include/aleph/topology/io/GML.hh: GMLWriter"]}
{"id": "C180", "title": "Spines of Cech complexes of point clouds", "statement": "For a file with points and a radius, the tool writes the Cech complex (all sets of points that are contained in a ball of this radius, with the smallest diameter of such a ball as weight, sorted by weights) and one of its spines: a subcomplex that is reached by elementary collapses, permits no further ones, and has the same homology. Each simplex is a line with its vertices and its weight; on request, the output is a LaTeX document with one picture of each complex, in which all positions are declared before they are used. The last options determine the radius and the algorithm for spines. Wrong radii, points with different numbers of coordinates, and pictures of points with fewer than two coordinates raise an exception.", "quantifier": "all files with points, all radii, all options, all orders of hash maps", "why_tests_cant": "over all point clouds, radii and orders of hash maps", "anchors": ["src/tools/persistent_spines.cc: main", "include/aleph/geometry/CechComplex.hh: buildCechComplex", "include/aleph/topology/Spine.hh: spine, dumb::spine", "include/aleph/topology/io/TikZ.hh: TikZ", "include/aleph/topology/SimplicialComplex.hh: operator<<", "include/aleph/topology/Simplex.hh: operator<<"]}
{"id": "C181", "title": "Confidence bands of piecewise linear functions", "statement": "For at least two files with functions that have the same domain, the tool writes their pointwise mean and a band of constant width around it. Half of the width is the smallest distance such that at least the fraction 1 - alpha of the bootstrap replicates of the mean differs from the mean by at most this distance, everywhere. The last options determine the level and the number of replicates. Invalid options, files that cannot be read, lines without two numbers, and points with the same first coordinate raise an exception; levels outside of the interval from 0 to 1 yield no band.", "quantifier": "all files with functions, all levels and numbers of replicates, all random numbers", "why_tests_cant": "over all functions, levels, numbers of replicates and random numbers", "anchors": ["src/tools/piecewise_linear_function_smoothing.cc: main, load, meanCalculation", "include/aleph/math/PiecewiseLinearFunction.hh: PiecewiseLinearFunction, operator<<", "include/aleph/math/Bootstrap.hh: makeReplicates, index"]}
{"id": "C182", "title": "Two filtrations of connectivity matrices", "statement": "For each file with a square matrix, the tool writes one file for each dimension of the required range. It contains the points of the graph whose edges are the entries above the diagonal that are not zero, or of its clique complex up to the given dimension: first those for ascending weights (vertices have the smallest entry), then those for descending weights (vertices have the largest entry). On request, there are points for the distances 1 - w instead, with vertices at zero. For all thresholds a <= b, the points of a dimension count the homology classes at a that are alive at b; unpaired points of the highest dimension are reported on request. Infinity can be replaced by a given number. Missing files, texts without a square matrix, and wrong arguments raise an exception.", "quantifier": "all matrices, dimensions and lists of options, all orders of hash maps", "why_tests_cant": "over all matrices, dimensions and thresholds", "anchors": ["src/tools/ephemeral.cc: main, processFilename, DiagramCollection", "include/aleph/topology/io/AdjacencyMatrix.hh: AdjacencyMatrixReader", "include/aleph/geometry/RipsExpander.hh: operator(), assignMaximumWeight", "include/aleph/persistentHomology/Calculation.hh: calculatePersistenceDiagrams"]}
{"id": "C183", "title": "Confidence bands of persistence indicator functions", "statement": "For files with persistence diagrams, or with step functions, the tool writes the mean of the indicator functions (or step functions) and a band of constant width around it. Half of the width is the smallest number such that at least the fraction 1 - alpha of the bootstrap replicates of the mean differs from the mean by at most this number. Points on the diagonal and unpaired points are ignored; the indicator function counts the active intervals. The last options determine the level and the number of replicates. Invalid options, levels outside of the interval from 0 to 1, no replicates, and files that cannot be read raise an exception; without files, nothing happens.", "quantifier": "all files, all levels and numbers of replicates, all random numbers", "why_tests_cant": "over all diagrams, levels, numbers of replicates and random numbers", "anchors": ["src/tools/persistence_indicator_function_confidence_sets.cc: main, meanCalculation, index", "include/aleph/math/StepFunction.hh: StepFunction", "include/aleph/persistenceDiagrams/PersistenceIndicatorFunction.hh: persistenceIndicatorFunction", "include/aleph/math/Bootstrap.hh: makeReplicates", "include/aleph/utilities/Values.hh: ensureRange, ensureLarger"]}
{"id": "C184", "title": "Estimates of local dimension of point clouds", "statement": "For a file with points, the tool writes one line for each point, in the order of the file, with an estimate of the dimension of the data at this point: the position of the largest gap in the spectrum of the principal components of its nearest points (pca, by default), a quotient of means of distances to the nearest points for one number of neighbours or, by least squares, for a range of them (nn), the mean of estimates with maximal likelihood (mle), or an estimate by means of the minimum spanning tree (mst). On request, each estimate is replaced several times by the mean over its nearest points, weighted with the inverse of the squared distance. The last options determine all parameters. Invalid numbers and files with lines of different lengths raise an exception; without a file the tool fails.", "quantifier": "all files with points, all options, all tie breaking", "why_tests_cant": "over all point clouds and parameters", "anchors": ["src/tools/local_dimensionality.cc: main", "include/aleph/containers/DimensionalityEstimators.hh: estimateLocalDimensionalityPCA, estimateLocalDimensionalityNearestNeighbours, estimateLocalDimensionalityNearestNeighboursMLE", "include/aleph/containers/MeanShift.hh: meanShiftSmoothing"]}
{"id": "C185", "title": "Scales of skeletons over time", "statement": "For a file with points, the tool writes one block of lines for each of seven times between 0 and 9. A block contains one line for each point: its index, and the mean length of its edges in the Gabriel graph of the points, multiplied by the amount of heat that is left at the point if heat flows along the edges (in proportion to their length and to differences of heat) and one unit of heat is put at this point at the beginning. A second file contains the same values next to the first two coordinates of the points. Two points are joined in the Gabriel graph if no other point lies in the ball whose diameter is the segment between them. Files with lines of different lengths raise an exception; without a file the tool fails.", "quantifier": "all files with points", "why_tests_cant": "over all point clouds", "anchors": ["src/tools/multi_scale_skeleton.cc: main, ScaleEstimationFunctor", "include/aleph/geometry/BetaSkeleton.hh: buildBetaSkeletonNaive", "include/aleph/geometry/HeatKernel.hh: HeatKernel"]}
{"id": "C186", "title": "Curvatures of point clouds", "statement": "For a file with points and a number of neighbours, the tool writes one line for each point, in the order of the file: its coordinates, and the curvature of the sphere (or plane) that fits best to its nearest neighbours, with weights that decrease with the distance. The number is never negative; for points of a sphere it is the curvature of this sphere. Arguments that are not numbers, and files with lines of different lengths, raise an exception; with fewer than two arguments the tool fails. A file without points yields no output.", "quantifier": "all files with points, all numbers of neighbours", "why_tests_cant": "over all point clouds and numbers of neighbours", "anchors": ["src/tools/mean_curvature.cc: main", "include/aleph/geometry/TangentSpace.hh: TangentSpace"]}
{"id": "C187", "title": "Peaks of spectra", "statement": "For a file with a spectrum (pairs of positions and intensities), the tool writes by default the persistence diagram of the superlevel sets, without points on the diagonal: one point connects the extreme intensities, and the number of other points above and below all pairs of thresholds describes how many runs of samples above the lower threshold reach the upper one. In the mode `transformation` it writes the positions in ascending order with the prominence of each sample, that is, how far one has to descend from it before a higher sample is reached. In the mode `identity` it writes the samples in the order of the file. On request, all intensities are divided by their sum. The last option determines the mode. A file that does not exist raises an exception; without a file the tool fails.", "quantifier": "all spectra, all options", "why_tests_cant": "over all spectra", "anchors": ["src/tools/spectral_analysis.cc: main", "include/aleph/topology/io/FlexSpectrum.hh: FlexSpectrumReader", "include/aleph/persistentHomology/ConnectedComponents.hh: calculateZeroDimensionalPersistenceDiagram"]}
{"id": "C188", "title": "Processing of image patches", "statement": "For a file with image patches (one per line, intensities that are not negative), the tool writes the fifth of the patches with the highest contrast, in the order of the file. Each patch is replaced by the decimal logarithms of its intensities, its mean is subtracted, it is divided by its contrast norm (from the squared differences of pixels that are next to each other) and finally by its Euclidean norm, so that it lies on a sphere and its mean is zero. A file that does not exist, or has lines of different lengths, raises an exception; without a file the tool fails.", "quantifier": "all files with patches", "why_tests_cant": "over all point clouds", "anchors": ["src/tools/process_image_patches.cc: main, contrastNorm, log", "include/aleph/containers/PointCloud.hh: load", "include/aleph/math/KahanSummation.hh: accumulate_kahan_sorted"]}
{"id": "C189", "title": "Random stratified graphs and their filtrations", "statement": "For a list of at least two sizes of strata, the generator returns a graph whose vertices are numbered stratum by stratum and have weight zero. Two vertices are adjacent if and only if they belong to different strata; the weights of edges are the random numbers in the order in which they are drawn, one for each edge. Fewer than two strata raise an exception. The lower filtration of such a graph contains all vertices, with weight zero, and the edges with negative weights, in descending order; the upper filtration contains all vertices and the edges with positive weights, in ascending order. In both of them, no edge precedes its vertices.", "quantifier": "all lists of strata, all sequences of random numbers; for filtrations, all weighted complexes", "why_tests_cant": "over all lists of strata, all random numbers and all weights", "anchors": ["src/tools/random_stratified_graphs.cc: makeRandomStratifiedGraph, makeFiltration, makeLowerFiltration, makeUpperFiltration", "include/aleph/topology/SimplicialComplex.hh: sort", "include/aleph/topology/filtrations/Data.hh: operator()"]}
{"id": "C190", "title": "Filtrations of weighted graphs with weights of vertices", "statement": "For a weighted graph, the analysis of stratified graphs assigns weights to vertices and sorts the graph. The weight of a vertex is the extreme weight of all edges, or, on request, of its own edges: the smallest one, or the largest one for the reverse direction. Edges keep their weights. The result is sorted by weights in the required direction, or by their absolute values, and no edge precedes its vertices, so that it is a filtration. Isolated vertices are part of it.", "quantifier": "all weighted graphs, both directions, both orders, both strategies", "why_tests_cant": "over all graphs and weights", "anchors": ["src/tools/stratified_graph_analysis.cc: applyFiltration, assignVertexWeights, main", "include/aleph/topology/SimplicialComplex.hh: sort", "include/aleph/topology/filtrations/Data.hh: operator()"]}
{"id": "C191", "title": "Normalisation of weights of graphs", "statement": "The analysis of stratified graphs normalises the weights of a graph by an increasing linear function. For `abs`, the largest absolute value of the weights of edges is one afterwards, and zero remains zero; for `minmax`, the smallest and the largest weight of edges are -1 and 1; for `standardize`, the weights of edges have mean zero and variance one. Graphs without edges are not changed; graphs whose edges have the same weight violate a precondition, and unknown strategies raise an exception.", "quantifier": "all weighted graphs, all strategies", "why_tests_cant": "over all weights", "anchors": ["src/tools/stratified_graph_analysis.cc: normalizeSimplicialComplex", "include/aleph/math/Statistics.hh: sampleMean, sampleStandardDeviation"]}
{"id": "C192", "title": "Diagrams of stratified graphs", "statement": "For a connected weighted graph, the analysis of stratified graphs with global weights of vertices yields the persistence diagram of dimension zero: all points are created at the lowest weight of the graph, and there is one point for each edge of a minimum spanning tree whose weight is different. (In the reverse direction, it is the highest weight and a maximum spanning tree.) The unpaired point ends at the smallest absolute value of the weights. Normalised diagrams arise from this by mapping the range of the weights to the unit interval; they are in the unit interval, and no point is on the diagonal.", "quantifier": "all connected weighted graphs, both directions, with and without normalisation", "why_tests_cant": "over all graphs and weights", "anchors": ["src/tools/stratified_graph_analysis.cc: main, getMinimumAbsoluteWeight", "include/aleph/persistentHomology/Calculation.hh: calculatePersistenceDiagrams"]}
{"id": "C193", "title": "Intersection homology with singular points", "statement": "Given a complex of dimension two or three and a value for each vertex, the tool for intersection homology uses the vertices whose values are below a threshold (or above it, if this is inverted) as singular points, and in dimension three the edges between them as singular stratum. Its diagrams are those of intersection homology whose allowable simplices are the ones without singular vertices, triangles (in dimension three with a single singular vertex), and tetrahedra. Optionally, the values are first standardised to mean zero and variance one. A vertex without value ends the program.", "quantifier": "all filtered complexes of dimension two or three, all values, thresholds, and both meanings", "why_tests_cant": "over all complexes and all values", "anchors": ["src/tools/persistent_intersection_homology.cc: standardizeValues, main", "include/aleph/topology/Filter.hh: Filter", "include/aleph/persistentHomology/PhiPersistence.hh: calculateIntersectionHomology"]}
{"id": "C194", "title": "Classes of equal diagrams", "statement": "The tool for interlevel set persistence hierarchies compares the diagrams of all files. It reports the number of different diagrams, and writes one line with indices of files for each class of at least two diagrams with the same points. Points on the diagonal and the order of points have no influence, multiplicities have. Each index belongs to at most one class, and a class contains all files with its points.", "quantifier": "all sequences of persistence diagrams", "why_tests_cant": "over all sequences of diagrams", "anchors": ["src/tools/interlevel_set_persistence_hierarchy.cc: main", "include/aleph/topology/UnionFind.hh: merge, roots, get", "include/aleph/persistenceDiagrams/PersistenceDiagram.hh: operator==, removeDiagonal"]}
