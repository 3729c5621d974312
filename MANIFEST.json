{
 "claims": [
  {
   "property": "C01",
   "status": "proved",
   "theorems": [
    "Aleph.C01_addColumns",
    "Aleph.C01_addColumns_twice",
    "Aleph.C01_addColumns_throws"
   ],
   "note": ""
  },
  {
   "property": "C02",
   "status": "proved",
   "theorems": [
    "Aleph.C02_representations_interchangeable",
    "Aleph.C02_columns_ascending",
    "Aleph.C02_set_column",
    "Aleph.C02_clear_column",
    "Aleph.C02_set_dimension",
    "Aleph.C02_set_num_columns",
    "Aleph.C02_duplicates_differ"
   ],
   "note": "with duplicates in setColumn the representations differ (witness)"
  },
  {
   "property": "C03",
   "status": "proved",
   "theorems": [
    "Aleph.C03_standard_reduced"
   ],
   "note": ""
  },
  {
   "property": "C04",
   "status": "proved",
   "theorems": [
    "Aleph.C04_column_combination",
    "Aleph.C04_prefix_spans"
   ],
   "note": ""
  },
  {
   "property": "C05",
   "status": "proved",
   "theorems": [
    "Aleph.C05_pairing_is_persistence_pairing",
    "Aleph.C05_pairing_all_algorithms"
   ],
   "note": ""
  },
  {
   "property": "C06",
   "status": "proved",
   "theorems": [
    "Aleph.C06_twist_eq_standard",
    "Aleph.C06_twist_reduced"
   ],
   "note": ""
  },
  {
   "property": "C07",
   "status": "proved",
   "theorems": [
    "Aleph.C07_dualize_entries",
    "Aleph.C07_dualize_involutive",
    "Aleph.C07_dualize_shift"
   ],
   "note": "involutive if a column of dimension zero exists; otherwise the dimensions are shifted (witness)"
  },
  {
   "property": "C08",
   "status": "proved",
   "theorems": [
    "Aleph.C08_dual_pairing"
   ],
   "note": ""
  },
  {
   "property": "C09",
   "status": "proved",
   "theorems": [
    "Aleph.C09_pairing_wellformed",
    "Aleph.C09_pairing_complete"
   ],
   "note": ""
  },
  {
   "property": "C10",
   "status": "proved",
   "theorems": [
    "Aleph.C10_betti"
   ],
   "note": "Betti number expressed by counting: #cycles = 2^beta * #boundaries"
  },
  {
   "property": "C100",
   "status": "partial",
   "theorems": [
    "Aleph.C100_gap",
    "Aleph.C100_sampling_partial"
   ],
   "note": "The code violates the property for a single sample and after setting the flag that skips the first eigenvalue; proved for all other cases."
  },
  {
   "property": "C101",
   "status": "partial",
   "theorems": [
    "Aleph.C101_estimate",
    "Aleph.C101_univariate",
    "Aleph.C101_multivariate_partial"
   ],
   "note": "The code violates normalisation in more than one dimension; proved is the exact value of the integral. One-dimensional kernels are proved completely."
  },
  {
   "property": "C102",
   "status": "proved",
   "theorems": [
    "Aleph.C102_nearest",
    "Aleph.C102_invariance"
   ],
   "note": ""
  },
  {
   "property": "C103",
   "status": "partial",
   "theorems": [
    "Aleph.C103_regression_partial",
    "Aleph.C103_unused"
   ],
   "note": "The code violates the property: the largest number of neighbours is not used; proved is the optimality for the remaining numbers."
  },
  {
   "property": "C104",
   "status": "proved",
   "theorems": [
    "Aleph.C104_likelihood",
    "Aleph.C104_invariance"
   ],
   "note": ""
  },
  {
   "property": "C105",
   "status": "partial",
   "theorems": [
    "Aleph.C105_components_partial",
    "Aleph.C105_invariance"
   ],
   "note": "The code violates one part: singular values are scaled by the number of coordinates instead of points; everything else is proved."
  },
  {
   "property": "C106",
   "status": "proved",
   "theorems": [
    "Aleph.C106_gap",
    "Aleph.C106_principal",
    "Aleph.C106_local"
   ],
   "note": ""
  },
  {
   "property": "C107",
   "status": "proved",
   "theorems": [
    "Aleph.C107_intersect",
    "Aleph.C107_empty"
   ],
   "note": "The common faces are generated for every non-empty simplex; the empty simplex terminates the program."
  },
  {
   "property": "C108",
   "status": "partial",
   "theorems": [
    "Aleph.C108_constrained_partial",
    "Aleph.C108_missed"
   ],
   "note": "Exact set of results; intersections with simplices of lower dimension are missed (counterexample)."
  },
  {
   "property": "C109",
   "status": "partial",
   "theorems": [
    "Aleph.C109_mean_partial",
    "Aleph.C109_equal",
    "Aleph.C109_dimension",
    "Aleph.C109_empty",
    "Aleph.C109_divergence"
   ],
   "note": "Shape of every result and optimality of the assignments; termination fails for some inputs, and dimensions other than zero are rejected."
  },
  {
   "property": "C11",
   "status": "proved",
   "theorems": [
    "Aleph.C11_boundary_matrix",
    "Aleph.C11_boundary_of_boundary",
    "Aleph.C11_is_boundary_matrix",
    "Aleph.C11_missing_faces_wrong"
   ],
   "note": "face-closed complexes; if faces are missing they are silently mapped to index 0 (witness)"
  },
  {
   "property": "C110",
   "status": "partial",
   "theorems": [
    "Aleph.C110_load",
    "Aleph.C110_indented_comment",
    "Aleph.C110_round_trip",
    "Aleph.C110_missing_file",
    "Aleph.C110_unchecked_index"
   ],
   "note": "Exact behaviour for all texts; the code violates the property for indented comments, unopened files and indices beyond the number of columns."
  },
  {
   "property": "C111",
   "status": "proved",
   "theorems": [
    "Aleph.C111_load",
    "Aleph.C111_blank_line",
    "Aleph.C111_round_trip"
   ],
   "note": ""
  },
  {
   "property": "C112",
   "status": "partial",
   "theorems": [
    "Aleph.C112_write_partial",
    "Aleph.C112_read",
    "Aleph.C112_single",
    "Aleph.C112_round_trip",
    "Aleph.C112_injection",
    "Aleph.C112_key"
   ],
   "note": "The code violates the property for names, keys and values that require escape sequences; everything else is proved."
  },
  {
   "property": "C113",
   "status": "proved",
   "theorems": [
    "Aleph.C113_pairing",
    "Aleph.C113_zero_dimensional",
    "Aleph.C113_positions"
   ],
   "note": "Positions in the pairing are those of the graph of the complex, not those of the complex (C113_positions)."
  },
  {
   "property": "C114",
   "status": "proved",
   "theorems": [
    "Aleph.C114_children",
    "Aleph.C114_forest",
    "Aleph.C114_trees"
   ],
   "note": ""
  },
  {
   "property": "C115",
   "status": "proved",
   "theorems": [
    "Aleph.C115_parents"
   ],
   "note": ""
  },
  {
   "property": "C116",
   "status": "partial",
   "theorems": [
    "Aleph.C116_vertex",
    "Aleph.C116_default_partial",
    "Aleph.C116_vertices",
    "Aleph.C116_face",
    "Aleph.C116_bound",
    "Aleph.C116_exception_debris",
    "Aleph.C116_hang"
   ],
   "note": "The code violates the property: default IDs collide with explicit ones, a failing addFace leaves half-edges behind that break later queries, and addFace may never return; everything else is proved."
  },
  {
   "property": "C117",
   "status": "partial",
   "theorems": [
    "Aleph.C117_faces_partial",
    "Aleph.C117_returns",
    "Aleph.C117_reported",
    "Aleph.C117_missing"
   ],
   "note": "The code violates the property: it looks at one face per vertex. Proved: only added faces are reported, not more often than added, at most one per vertex; a face is reported if its first vertex is new; the query returns exactly for meshes without isolated vertices."
  },
  {
   "property": "C118",
   "status": "partial",
   "theorems": [
    "Aleph.C118_neighbours_partial",
    "Aleph.C118_link",
    "Aleph.C118_lower_higher",
    "Aleph.C118_missing"
   ],
   "note": "The code violates the property: neighbours may be missing and null pointers may be dereferenced. Proved: all reported neighbours and edges exist; the relation between link, edges, lower and higher neighbours."
  },
  {
   "property": "C119",
   "status": "partial",
   "theorems": [
    "Aleph.C119_components_partial",
    "Aleph.C119_growing",
    "Aleph.C119_overestimated"
   ],
   "note": "The code violates the property: the number may be too large. Proved: it is never too small, it is exact for growing histories, and the query returns exactly for meshes without isolated vertices."
  },
  {
   "property": "C12",
   "status": "proved",
   "theorems": [
    "Aleph.C12_diagrams",
    "Aleph.C12_function_values",
    "Aleph.C51_points_above_diagonal"
   ],
   "note": "the variant with function values throws if an unpaired creator is present (part of C12_function_values)"
  },
  {
   "property": "C120",
   "status": "partial",
   "theorems": [
    "Aleph.C120_star_partial",
    "Aleph.C120_missing"
   ],
   "note": "The code violates the property: the star of a vertex on the boundary may be empty. Proved: the star consists of faces that contain the vertex, with their vertices and the original data."
  },
  {
   "property": "C121",
   "status": "proved",
   "theorems": [
    "Aleph.C121_segments",
    "Aleph.C121_extremum"
   ],
   "note": ""
  },
  {
   "property": "C122",
   "status": "proved",
   "theorems": [
    "Aleph.C122_sphere",
    "Aleph.C122_onto",
    "Aleph.C122_angles",
    "Aleph.C122_uniform"
   ],
   "note": ""
  },
  {
   "property": "C123",
   "status": "proved",
   "theorems": [
    "Aleph.C123_torus",
    "Aleph.C123_onto",
    "Aleph.C123_rejection",
    "Aleph.C123_uniform"
   ],
   "note": ""
  },
  {
   "property": "C124",
   "status": "partial",
   "theorems": [
    "Aleph.C124_sphere_partial",
    "Aleph.C124_wrong_centre",
    "Aleph.C124_plane",
    "Aleph.C124_curvature",
    "Aleph.C124_throws",
    "Aleph.C124_history"
   ],
   "note": "The code violates the property: the reported centre has the wrong sign. Proved: the zeros are the sphere around minus the reported centre, with the reported radius; curvatures; degenerate cases; independence of earlier queries."
  },
  {
   "property": "C125",
   "status": "partial",
   "theorems": [
    "Aleph.C125_equality_partial",
    "Aleph.C125_dimensions",
    "Aleph.C125_order",
    "Aleph.C125_total_order",
    "Aleph.C125_output"
   ],
   "note": "The code violates the property for points of different dimensions: equality ignores additional coordinates of the second point, or reads memory after its end. All else is proved."
  },
  {
   "property": "C126",
   "status": "proved",
   "theorems": [
    "Aleph.C126_format",
    "Aleph.C126_order",
    "Aleph.C126_zero"
   ],
   "note": ""
  },
  {
   "property": "C127",
   "status": "partial",
   "theorems": [
    "Aleph.C127_laws_partial",
    "Aleph.C127_elements",
    "Aleph.C127_scale",
    "Aleph.C127_truncation",
    "Aleph.C127_allclose",
    "Aleph.C127_allclose_symmetry",
    "Aleph.C127_bounds"
   ],
   "note": "The laws of vector spaces fail if the conversion of the scalar to the type of the elements is not exact: half of a vector of integers is zero. All else is proved."
  },
  {
   "property": "C128",
   "status": "partial",
   "theorems": [
    "Aleph.C128_read_partial",
    "Aleph.C128_split_name",
    "Aleph.C128_stray",
    "Aleph.C128_unfinished",
    "Aleph.C128_hang",
    "Aleph.C128_empty_simplex",
    "Aleph.C128_file"
   ],
   "note": "The code violates the property: some malformed files are read without an exception, others let the reader run forever, and a line break after the name of a block yields empty complexes. Proved: files whose lists start in the line of the name are read correctly; the exact behaviour in the other cases."
  },
  {
   "property": "C129",
   "status": "partial",
   "theorems": [
    "Aleph.C129_read_partial",
    "Aleph.C129_isolated",
    "Aleph.C129_undeclared",
    "Aleph.C129_duplicate",
    "Aleph.C129_again",
    "Aleph.C129_missing",
    "Aleph.C129_vertex_error",
    "Aleph.C129_empty_line",
    "Aleph.C129_edge_error",
    "Aleph.C129_negative",
    "Aleph.C129_joined",
    "Aleph.C129_file"
   ],
   "note": "The code violates the property: vertices without labels are lost if there are no edges, edges may refer to vertices that are not declared, labels of previous files are kept, and empty lines and negative weights raise exceptions. Proved: all other files are read correctly; the exact behaviour in these cases."
  },
  {
   "property": "C13",
   "status": "proved",
   "theorems": [
    "Aleph.C13_find",
    "Aleph.C13_terminate",
    "Aleph.C13_queries_harmless"
   ],
   "note": "merge with an unknown vertex terminates the program (noexcept); proved as C13_terminate"
  },
  {
   "property": "C130",
   "status": "partial",
   "theorems": [
    "Aleph.C130_graph_partial",
    "Aleph.C130_filtration",
    "Aleph.C130_nonnegative",
    "Aleph.C130_absolute",
    "Aleph.C130_read_partial",
    "Aleph.C130_lines",
    "Aleph.C130_comment",
    "Aleph.C130_file"
   ],
   "note": "The code violates the property: with minima in absolute value and negative weights, edges precede their vertices; empty lines count as rows, so that the shape of the matrix changes silently; texts that start with a comment are not read. All else is proved."
  },
  {
   "property": "C131",
   "status": "proved",
   "theorems": [
    "Aleph.C131_write",
    "Aleph.C131_exception",
    "Aleph.C131_unique"
   ],
   "note": "At most three coordinates are written. With labels, a label cannot be distinguished from a third coordinate, so that the last part is about output without labels."
  },
  {
   "property": "C132",
   "status": "partial",
   "theorems": [
    "Aleph.C132_spectrum",
    "Aleph.C132_normalised_partial",
    "Aleph.C132_negative",
    "Aleph.C132_single",
    "Aleph.C132_maps_partial",
    "Aleph.C132_ignored",
    "Aleph.C132_file"
   ],
   "note": "The code violates the property: spectra with a single sample are not normalised, edges precede their vertices for negative totals, and entries of earlier files are kept in the maps. All else is proved, for totals other than zero."
  },
  {
   "property": "C133",
   "status": "partial",
   "theorems": [
    "Aleph.C133_graphs_partial",
    "Aleph.C133_order",
    "Aleph.C133_cross",
    "Aleph.C133_file",
    "Aleph.C133_fields",
    "Aleph.C133_isolated",
    "Aleph.C133_no_labels",
    "Aleph.C133_unknown"
   ],
   "note": "The code violates the property: nodes without edges are lost, nodes that the indicator does not list are added to the first graph, and without graph labels every dataset with edges raises an exception. All else is proved, for datasets whose matrix has two fields per line and whose graph labels are read and at least as many as the graphs; labels are those of the position of a graph among all graphs, not of its number."
  },
  {
   "property": "C134",
   "status": "partial",
   "theorems": [
    "Aleph.C134_read_partial",
    "Aleph.C134_names",
    "Aleph.C134_numbers",
    "Aleph.C134_duplicate",
    "Aleph.C134_unknown",
    "Aleph.C134_dangling",
    "Aleph.C134_outside",
    "Aleph.C134_levels",
    "Aleph.C134_nested",
    "Aleph.C134_truncated",
    "Aleph.C134_attributes",
    "Aleph.C134_index",
    "Aleph.C134_collision",
    "Aleph.C134_file"
   ],
   "note": "The code violates the property: blank lines outside of the graph raise exceptions, nested lists lead to undefined behaviour, truncated files and edges with a weight to unknown nodes are accepted, different nodes may be the same vertex, negative weights are read as an empty text. All else is proved, for files whose graph consists of attributes, comments, nodes and edges; a graph whose own attributes are called id, source or target is excluded."
  },
  {
   "property": "C135",
   "status": "partial",
   "theorems": [
    "Aleph.C135_write",
    "Aleph.C135_exception",
    "Aleph.C135_read_partial",
    "Aleph.C135_lost",
    "Aleph.C135_labels"
   ],
   "note": "The code violates the property: the data of vertices is written as an attribute that is not read as their data, data that contains a sign is read as an empty text, and labels are counted from one, so that there is none for the vertex zero. All else is proved, for labels without quotation marks and line breaks."
  },
  {
   "property": "C136",
   "status": "partial",
   "theorems": [
    "Aleph.C136_index",
    "Aleph.C136_grid",
    "Aleph.C136_read_partial",
    "Aleph.C136_blank",
    "Aleph.C136_keyword",
    "Aleph.C136_few",
    "Aleph.C136_missing",
    "Aleph.C136_exception",
    "Aleph.C136_ignored",
    "Aleph.C136_number",
    "Aleph.C136_format"
   ],
   "note": "The code violates the property: blank lines and keyword lines with underscores or trailing whitespace are read as values, missing values are taken from edges, and files with another structure or with types such as unsigned_char are ignored without an exception. All else is proved, for files whose lines after the coordinates are keyword lines or values, and with at least one value per point."
  },
  {
   "property": "C137",
   "status": "partial",
   "theorems": [
    "Aleph.C137_read_partial",
    "Aleph.C137_binary",
    "Aleph.C137_empty",
    "Aleph.C137_polygon",
    "Aleph.C137_degenerate",
    "Aleph.C137_dangling",
    "Aleph.C137_truncated",
    "Aleph.C137_repeated",
    "Aleph.C137_types",
    "Aleph.C137_order",
    "Aleph.C137_exception"
   ],
   "note": "The code violates the property: binary files yield an empty complex, meshes without faces fail an assertion, triangles with a repeated vertex lead to undefined behaviour, faces with unknown vertices are accepted, faces that are missing at the end of a text without a line feed are not noticed, and faces must be declared after vertices. All else is proved, for headers that declare vertices and faces, in this order."
  },
  {
   "property": "C138",
   "status": "proved",
   "theorems": [
    "Aleph.C138_basename",
    "Aleph.C138_extension",
    "Aleph.C138_parts",
    "Aleph.C138_directory",
    "Aleph.C138_temporary"
   ],
   "note": "Paths without null characters; basename of the system follows POSIX."
  },
  {
   "property": "C139",
   "status": "partial",
   "theorems": [
    "Aleph.C139_missing",
    "Aleph.C139_formats",
    "Aleph.C139_functor",
    "Aleph.C139_maximum",
    "Aleph.C139_gml_labels",
    "Aleph.C139_gml_numbers",
    "Aleph.C139_pajek_labels",
    "Aleph.C139_pajek_vertices",
    "Aleph.C139_stale",
    "Aleph.C139_inconsistent",
    "Aleph.C139_unsorted"
   ],
   "note": "The code violates the property: weights and order of GML files remain as they are in the file, labels of nodes with numbers and of vertices in Pajek files are stored at other indices than those of the vertices, and labels of a previous file remain. All else is proved; the reader for HDF5 files is a parameter."
  },
  {
   "property": "C14",
   "status": "proved",
   "theorems": [
    "Aleph.C14_roots_get",
    "Aleph.C14_merge_directional"
   ],
   "note": ""
  },
  {
   "property": "C140",
   "status": "proved",
   "theorems": [
    "Aleph.C140_picture",
    "Aleph.C140_declared",
    "Aleph.C140_error",
    "Aleph.C140_options"
   ],
   "note": "Texts of numbers and colours do not contain line feeds. Vertices without an element of the container lead to undefined behaviour, which is part of the theorem about errors."
  },
  {
   "property": "C141",
   "status": "partial",
   "theorems": [
    "Aleph.C141_defined",
    "Aleph.C141_undefined",
    "Aleph.C141_normals",
    "Aleph.C141_fit_partial",
    "Aleph.C141_sphere",
    "Aleph.C141_equidistant",
    "Aleph.C141_circle",
    "Aleph.C141_order",
    "Aleph.C141_centroid"
   ],
   "note": "The code violates the property: for points of a sphere, the sphere itself is never chosen, because only positive eigenvalues are considered; curvatures are 0 for equidistant neighbours; the first positive eigenvalue is not necessarily the smallest one, so that the fit depends on the order of eigenvalues. For ascending eigenvalues, and neighbours that do not belong to a common sphere, the property is proved."
  },
  {
   "property": "C142",
   "status": "proved",
   "theorems": [
    "Aleph.C142_calls"
   ],
   "note": "At most as many simplices as an index can represent."
  },
  {
   "property": "C143",
   "status": "proved",
   "theorems": [
    "Aleph.C143_relevance",
    "Aleph.C143_labels"
   ],
   "note": "For complexes whose faces are not heavier than their cofaces."
  },
  {
   "property": "C144",
   "status": "partial",
   "theorems": [
    "Aleph.C144_communities_partial",
    "Aleph.C144_heavy_vertices"
   ],
   "note": "The code violates the property if the ends of light edges are heavier than the threshold: such vertices are removed. For all other graphs, the property is proved."
  },
  {
   "property": "C145",
   "status": "partial",
   "theorems": [
    "Aleph.C145_levels",
    "Aleph.C145_labels",
    "Aleph.C145_too_large",
    "Aleph.C145_run_partial",
    "Aleph.C145_reverse",
    "Aleph.C145_names"
   ],
   "note": "The code violates the property: without cliques of the largest size, nothing is reported unless empty graphs are ignored; with the reverse expansion and a positive minimum, no vertices are listed; for negative weights, simplices of higher dimension get weight 0, and communities that persist are destroyed before they are created. All else is proved, for graphs without infinite weights."
  },
  {
   "property": "C146",
   "status": "partial",
   "theorems": [
    "Aleph.C146_grid",
    "Aleph.C146_field_partial",
    "Aleph.C146_transposed",
    "Aleph.C146_big_endian",
    "Aleph.C146_maximum",
    "Aleph.C146_count",
    "Aleph.C146_order",
    "Aleph.C146_other"
   ],
   "note": "The code violates the property: rows are as long as the first dimension, so fields with different numbers of rows and columns become another grid; bytes are not reordered; data sets with another number of dimensions are ignored. All else is proved."
  },
  {
   "property": "C147",
   "status": "partial",
   "theorems": [
    "Aleph.C147_read_partial",
    "Aleph.C147_defined",
    "Aleph.C147_invalid",
    "Aleph.C147_missing",
    "Aleph.C147_functor",
    "Aleph.C147_undefined",
    "Aleph.C147_no_graph",
    "Aleph.C147_keys",
    "Aleph.C147_identifiers",
    "Aleph.C147_data",
    "Aleph.C147_attributes",
    "Aleph.C147_index",
    "Aleph.C147_maximum",
    "Aleph.C147_duplicate"
   ],
   "note": "The code violates the property: edges without a weight do not obtain one from their nodes by default; documents without a declaration, missing files and data without text are undefined; edges without an identifier and keys for graphs are rejected; nodes of the same identifier are accepted. All else is proved."
  },
  {
   "property": "C148",
   "status": "partial",
   "theorems": [
    "Aleph.C148_values",
    "Aleph.C148_range_partial",
    "Aleph.C148_constant",
    "Aleph.C148_negative",
    "Aleph.C148_outside"
   ],
   "note": "The code violates the property for functions with at most one value, for negative values, and outside of all intervals. All else is proved."
  },
  {
   "property": "C149",
   "status": "partial",
   "theorems": [
    "Aleph.C149_by_level",
    "Aleph.C149_covered",
    "Aleph.C149_to_level",
    "Aleph.C149_harmonic_partial",
    "Aleph.C149_path",
    "Aleph.C149_endless",
    "Aleph.C149_lost",
    "Aleph.C149_raised"
   ],
   "note": "The code violates the property for trees that store a point several times: the function may not end, or points get lost; and the level may increase. For metrics and trees with distinct points, all else is proved."
  },
  {
   "property": "C15",
   "status": "proved",
   "theorems": [
    "Aleph.C15_components"
   ],
   "note": ""
  },
  {
   "property": "C150",
   "status": "partial",
   "theorems": [
    "Aleph.C150_pairs",
    "Aleph.C150_matrix",
    "Aleph.C150_hausdorff",
    "Aleph.C150_wasserstein_partial",
    "Aleph.C150_bottleneck_partial",
    "Aleph.C150_rooted",
    "Aleph.C150_missing",
    "Aleph.C150_indicator_partial",
    "Aleph.C150_envelope_partial",
    "Aleph.C150_envelope_wrong",
    "Aleph.C150_functions",
    "Aleph.C150_kernel",
    "Aleph.C150_not_a_kernel",
    "Aleph.C150_scale_space",
    "Aleph.C150_options_partial",
    "Aleph.C150_options_wrong",
    "Aleph.C150_kernel_option",
    "Aleph.C150_switches",
    "Aleph.C150_first",
    "Aleph.C150_postprocess",
    "Aleph.C150_names",
    "Aleph.C150_groups",
    "Aleph.C150_read",
    "Aleph.C150_run",
    "Aleph.C150_text"
   ],
   "note": "The code violates the property: the entries for Wasserstein and bottleneck distances are rooted once more, those for indicator functions are not rooted; an exception is raised for Wasserstein distances if a data set lacks a dimension; -h does not undo -b; the distances of envelopes are wrong if their difference changes its sign; matrices of exponential kernels have a diagonal of zeroes. All else is proved."
  },
  {
   "property": "C151",
   "status": "partial",
   "theorems": [
    "Aleph.C151_betti",
    "Aleph.C151_identifier",
    "Aleph.C151_file_partial",
    "Aleph.C151_output",
    "Aleph.C151_failure",
    "Aleph.C151_zeroth_wrong"
   ],
   "note": "The code violates the property: a file overwrites the number of an earlier one with the same identifier, and identifiers are remainders; the zeroth Betti number, which is announced, is not printed. All else is proved for files whose edges have nodes as end points and finite weights."
  },
  {
   "property": "C152",
   "status": "partial",
   "theorems": [
    "Aleph.C152_names_partial",
    "Aleph.C152_names_wrong",
    "Aleph.C152_statistics",
    "Aleph.C152_invalid_partial",
    "Aleph.C152_diagonal_wrong",
    "Aleph.C152_options",
    "Aleph.C152_output",
    "Aleph.C152_failure",
    "Aleph.C152_commas_wrong"
   ],
   "note": "The code violates the property: a second extension is removed from names that end in .txt; the option for invalid values also removes all points on the diagonal; names are not quoted; an unknown option is undefined. All else is proved for diagrams without infinite values."
  },
  {
   "property": "C153",
   "status": "partial",
   "theorems": [
    "Aleph.C153_signature",
    "Aleph.C153_order",
    "Aleph.C153_stability",
    "Aleph.C153_empty_wrong",
    "Aleph.C153_filter",
    "Aleph.C153_normalize",
    "Aleph.C153_invariance",
    "Aleph.C153_options",
    "Aleph.C153_output_partial",
    "Aleph.C153_failure"
   ],
   "note": "The code violates the property for empty diagrams, for which an exception is raised. All else is proved for diagrams without infinite values."
  },
  {
   "property": "C154",
   "status": "partial",
   "theorems": [
    "Aleph.C154_perversities",
    "Aleph.C154_overflow",
    "Aleph.C154_dimension_zero",
    "Aleph.C154_homology",
    "Aleph.C154_intersection_partial",
    "Aleph.C154_graphs",
    "Aleph.C154_only_maximum",
    "Aleph.C154_wrong_strata",
    "Aleph.C154_main_partial",
    "Aleph.C154_main_points"
   ],
   "note": "The code violates the property: the strata are not subdivided together with the complex, so that from dimension two on the numbers are not those of intersection homology; complexes of dimension zero and empty lists raise an exception. All else is proved, and it is described which numbers are reported."
  },
  {
   "property": "C155",
   "status": "proved",
   "theorems": [
    "Aleph.C155_stability",
    "Aleph.C155_stability_superlevel",
    "Aleph.C155_bottleneck",
    "Aleph.C155_wasserstein"
   ],
   "note": ""
  },
  {
   "property": "C156",
   "status": "partial",
   "theorems": [
    "Aleph.C156_main",
    "Aleph.C156_rejected",
    "Aleph.C156_missing_file",
    "Aleph.C156_options",
    "Aleph.C156_stability"
   ],
   "note": "Proved for all functions with at least two values. Functions with one value, and files with empty lines or leading separators, are rejected with an exception, and files that cannot be read are ignored silently."
  },
  {
   "property": "C157",
   "status": "proved",
   "theorems": [
    "Aleph.C157_minimum_spanning_tree",
    "Aleph.C157_exceptions",
    "Aleph.C157_packed_witness"
   ],
   "note": "Strides are assumed to be multiples of the size of a number, as for all arrays that are not fields of packed records; C157_packed_witness shows what happens otherwise."
  },
  {
   "property": "C158",
   "status": "partial",
   "theorems": [
    "Aleph.C158_edges_and_pairs_partial",
    "Aleph.C158_edges_witness",
    "Aleph.C158_pairs_witness"
   ],
   "note": "The code violates the property: the reported edges connect the creator to an end point of the destroyer and need not belong to the tree; the second edge of a pair is the first suitable edge of the triangle, not the longest one. It is proved what is reported."
  },
  {
   "property": "C159",
   "status": "proved",
   "theorems": [
    "Aleph.C159_rips_diagrams",
    "Aleph.C159_persistent_betti",
    "Aleph.C159_stability",
    "Aleph.C159_single_point_witness"
   ],
   "note": ""
  },
  {
   "property": "C16",
   "status": "proved",
   "theorems": [
    "Aleph.C16_zero_dimensional_pairing",
    "Aleph.C16_agrees_with_reduction"
   ],
   "note": ""
  },
  {
   "property": "C160",
   "status": "proved",
   "theorems": [
    "Aleph.C160_minimum_spanning_tree",
    "Aleph.C160_maximum_spanning_tree",
    "Aleph.C160_exceptions",
    "Aleph.C160_no_edges",
    "Aleph.C160_pairing"
   ],
   "note": ""
  },
  {
   "property": "C161",
   "status": "partial",
   "theorems": [
    "Aleph.C161_point_cloud_partial",
    "Aleph.C161_default_epsilon",
    "Aleph.C161_layout_witness"
   ],
   "note": "The code violates the property: the strides of the array are ignored, and classes of the largest dimension that are never destroyed are not reported, so that the result is empty with the default threshold. Proved for points that are stored one after the other, and all dimensions below the largest one."
  },
  {
   "property": "C162",
   "status": "partial",
   "theorems": [
    "Aleph.C162_spanning_tree_partial",
    "Aleph.C162_first_row",
    "Aleph.C162_witness",
    "Aleph.C162_output_partial",
    "Aleph.C162_errors",
    "Aleph.C162_not_square"
   ],
   "note": "The code violates the property: the complex is sorted lexicographically instead of by weight, so that the points come from some spanning tree (for matrices without zeros, from the first row alone) and depend on the order of rows; diagrams are not separated by commas, so that the output is JSON only if there is at most one diagram. All of this is proved."
  },
  {
   "property": "C163",
   "status": "partial",
   "theorems": [
    "Aleph.C163_output_partial",
    "Aleph.C163_failure"
   ],
   "note": "The code violates the property: a diagram all of whose points have the same creation value or the same destruction value leads to undefined behaviour. All else is proved."
  },
  {
   "property": "C164",
   "status": "partial",
   "theorems": [
    "Aleph.C164_output_partial",
    "Aleph.C164_files_partial",
    "Aleph.C164_factor_betti",
    "Aleph.C164_empty",
    "Aleph.C164_no_edges",
    "Aleph.C164_weights",
    "Aleph.C164_options",
    "Aleph.C164_usage",
    "Aleph.C164_formats",
    "Aleph.C164_edge_list",
    "Aleph.C164_separator_witness",
    "Aleph.C164_node_weights_witness",
    "Aleph.C164_few_node_weights_witness"
   ],
   "note": "The code violates the property: weights of nodes are neither normalized nor inverted, so that edges can precede their vertices; vertices always have weight zero otherwise, which does not fit negative weights; Betti numbers are zero if infinite values are replaced; lines between diagrams can be missing; graphs without edges yield no output, although they have components; too few node weights lead to undefined behaviour. Proved for all weights that fit."
  },
  {
   "property": "C165",
   "status": "partial",
   "theorems": [
    "Aleph.C165_output_partial",
    "Aleph.C165_options",
    "Aleph.C165_coincident",
    "Aleph.C165_input",
    "Aleph.C165_arguments",
    "Aleph.C165_normalize_witness"
   ],
   "note": "The code violates the property: values are divided by the square of the largest distance; files that cannot be opened and standard input that is a pipe yield empty output without an error; a missing threshold is undefined behaviour. All else is proved, and what happens instead."
  },
  {
   "property": "C166",
   "status": "proved",
   "theorems": [
    "Aleph.C166_output",
    "Aleph.C166_options",
    "Aleph.C166_errors",
    "Aleph.C166_single_pixel"
   ],
   "note": "For a single pixel, there is no output at all (C166_single_pixel), which is why the property is about images with at least two pixels."
  },
  {
   "property": "C167",
   "status": "partial",
   "theorems": [
    "Aleph.C167_output_partial",
    "Aleph.C167_options",
    "Aleph.C167_arguments",
    "Aleph.C167_few_landmarks",
    "Aleph.C167_default",
    "Aleph.C167_input"
   ],
   "note": "The code violates the property: a file name alone is rejected, the dimension is ignored unless there is a third argument, fewer landmarks than nu (by default: fewer than twenty points) and too many random landmarks are undefined behaviour, and a file that cannot be opened is not reported. All else is proved, and what happens instead."
  },
  {
   "property": "C168",
   "status": "proved",
   "theorems": [
    "Aleph.C168_output",
    "Aleph.C168_errors"
   ],
   "note": "What counts as a value of a file is stated in the specification of C136, whose deviations from the format (blank lines, names) apply here, too."
  },
  {
   "property": "C169",
   "status": "partial",
   "theorems": [
    "Aleph.C169_output_partial",
    "Aleph.C169_superlevel",
    "Aleph.C169_errors"
   ],
   "note": "The code violates the property for superlevel sets: simplices are sorted by ascending values, so simplices precede their faces whenever two vertices of a triangle have different values (C169_superlevel), and the diagrams are wrong. Sublevel sets are proved."
  },
  {
   "property": "C17",
   "status": "proved",
   "theorems": [
    "Aleph.C17_components",
    "Aleph.C17_elder_rule",
    "Aleph.C17_counts",
    "Aleph.C17_points_above_diagonal",
    "Aleph.C17_persistent_components",
    "Aleph.C17_persistent_components_superlevel"
   ],
   "note": ""
  },
  {
   "property": "C170",
   "status": "partial",
   "theorems": [
    "Aleph.C170_files_partial",
    "Aleph.C170_isolated",
    "Aleph.C170_empty_directory",
    "Aleph.C170_options",
    "Aleph.C170_failures",
    "Aleph.C170_edge_list"
   ],
   "note": "The code violates the property: an isolated vertex, which stems from a line with two equal fields, makes the program read behind the last degree (C170_isolated); an empty name of the output directory is undefined behaviour (C170_empty_directory). Multiples of the largest degree are reduced modulo 2^32. Graphs without isolated vertices are covered completely. Output files that cannot be opened are not modelled."
  },
  {
   "property": "C171",
   "status": "partial",
   "theorems": [
    "Aleph.C171_output_partial",
    "Aleph.C171_two_points",
    "Aleph.C171_failures"
   ],
   "note": "The code violates the property: if all eccentricities are equal, in particular for two points (C171_two_points), zero is divided by zero, and all values are the lowest number; files that cannot be opened and files without points are undefined behaviour (C171_failures). All else is proved."
  },
  {
   "property": "C172",
   "status": "partial",
   "theorems": [
    "Aleph.C172_rectangular_partial",
    "Aleph.C172_same_maximum",
    "Aleph.C172_missing_pair"
   ],
   "note": "The code violates the property: columns whose maximum index is not the index of a column are skipped, so they are neither reduced nor used to reduce others (C172_same_maximum, C172_missing_pair). C172_rectangular_partial states what is calculated instead, for all matrices: those columns stay the same, and the others are reduced as if those were empty."
  },
  {
   "property": "C173",
   "status": "proved",
   "theorems": [
    "Aleph.C173_unweighted",
    "Aleph.C173_weighted",
    "Aleph.C173_divergence",
    "Aleph.C173_exception"
   ],
   "note": "The generator for weighted graphs does not end if every random number is below the probability (C173_divergence). Overflow of weights is not modelled."
  },
  {
   "property": "C174",
   "status": "partial",
   "theorems": [
    "Aleph.C174_output_partial",
    "Aleph.C174_throws"
   ],
   "note": "The code violates the property: for every function with at least two values, an exception is raised (C174_throws)."
  },
  {
   "property": "C175",
   "status": "partial",
   "theorems": [
    "Aleph.C175_random",
    "Aleph.C175_box",
    "Aleph.C175_sphere",
    "Aleph.C175_torus",
    "Aleph.C175_no_output",
    "Aleph.C175_distinct"
   ],
   "note": "The code violates the property for sparse samples of spheres and tori: without a triangle, an exception ends the program (second parts of C175_sphere and C175_torus); for boxes, an empty diagram is written to a file with another name. All else is proved, for all random numbers."
  },
  {
   "property": "C176",
   "status": "partial",
   "theorems": [
    "Aleph.C176_output_partial",
    "Aleph.C176_single_point",
    "Aleph.C176_failures"
   ],
   "note": "The code violates the property: each point is counted as its own neighbour (so that degrees are larger by one), and for a single point the output is not a JSON text (C176_single_point). Negative thresholds are not covered."
  },
  {
   "property": "C177",
   "status": "partial",
   "theorems": [
    "Aleph.C177_files_partial",
    "Aleph.C177_contents",
    "Aleph.C177_round_trip",
    "Aleph.C177_failures",
    "Aleph.C177_mean_witness",
    "Aleph.C177_overwritten_witness"
   ],
   "note": "The code violates the property: the mean is not the mean of the functions (C177_mean_witness), and diagrams with equal names overwrite each other's results (C177_overwritten_witness). The conditions on diagrams are those of C40."
  },
  {
   "property": "C178",
   "status": "partial",
   "theorems": [
    "Aleph.C178_output_partial",
    "Aleph.C178_unsupported",
    "Aleph.C178_failures"
   ],
   "note": "The code violates the property: unknown descriptors, and numbers of neighbours above the number of points (also the default value), lead to reads behind the end of an array (C178_unsupported); the Gaussian descriptor uses the bandwidth instead of its square (C90). Names that have to be escaped (C112) are not covered."
  },
  {
   "property": "C179",
   "status": "partial",
   "theorems": [
    "Aleph.C179_files_partial",
    "Aleph.C179_closeness",
    "Aleph.C179_graphs",
    "Aleph.C179_edgeless",
    "Aleph.C179_loops",
    "Aleph.C179_dimension",
    "Aleph.C179_superlevel",
    "Aleph.C179_failures"
   ],
   "note": "The code violates the property: superlevel sets are sorted by ascending weights, which is not a filtration (C179_superlevel), graphs without edges raise an exception (C179_edgeless), nodes that only occur in loops lead to reads behind the end of an array (C179_loops), and the dimension has no effect (C179_dimension). The conditions on files are those of C133."
  },
  {
   "property": "C18",
   "status": "proved",
   "theorems": [
    "Aleph.C18_normal_form",
    "Aleph.C18_equality",
    "Aleph.C18_dimension",
    "Aleph.C18_contains"
   ],
   "note": ""
  },
  {
   "property": "C180",
   "status": "partial",
   "theorems": [
    "Aleph.C180_text_partial",
    "Aleph.C180_pictures",
    "Aleph.C180_failures"
   ],
   "note": "The code violates the property: the short option for the algorithm is declared without an argument, so that a null pointer is converted to a string (C180_failures). The external library Miniball is replaced by its contract, which is shown to be satisfiable (exists_isMiniballOf)."
  },
  {
   "property": "C181",
   "status": "partial",
   "theorems": [
    "Aleph.C181_band_partial",
    "Aleph.C181_failures",
    "Aleph.C181_level",
    "Aleph.C181_domain_witness"
   ],
   "note": "The band is proved for functions with the same domain; the code violates the property for other functions, whose mean is wrong (C181_domain_witness), and there is no band for level 1 (C181_level). The short option for the number of replicates is missing."
  },
  {
   "property": "C182",
   "status": "partial",
   "theorems": [
    "Aleph.C182_distance_partial",
    "Aleph.C182_ascending_partial",
    "Aleph.C182_failures",
    "Aleph.C182_descending_witness",
    "Aleph.C182_negative_witness",
    "Aleph.C182_distance_witness"
   ],
   "note": "Proved for distances, and for the points of the ascending filtration. The code violates the property: the descending filtration is sorted by ascending weights (C182_descending_witness), negative weights of higher simplices are replaced by zero (C182_negative_witness), and correlations above one lead to points below the diagonal (C182_distance_witness). Names that occur more than once are not covered."
  },
  {
   "property": "C183",
   "status": "partial",
   "theorems": [
    "Aleph.C183_band_partial",
    "Aleph.C183_common_interval",
    "Aleph.C183_indicator",
    "Aleph.C183_failures",
    "Aleph.C183_gap_witness"
   ],
   "note": "The band is proved with respect to the addition of step functions that the library provides, and completely for functions that are constant on a common interval. The code violates the property: sums of step functions fill gaps (C183_gap_witness), and the level 1 is accepted but never yields a result (C183_failures)."
  },
  {
   "property": "C184",
   "status": "partial",
   "theorems": [
    "Aleph.C184_output_partial",
    "Aleph.C184_unsupported",
    "Aleph.C184_failures"
   ],
   "note": "Proved for pca, nn and mle with supported parameters, with and without smoothing. The code violates the property (C184_unsupported): the method mst, unknown methods, and ranges of neighbours with swapped ends write nothing, and lead to reads behind the end of an array if smoothing is requested; the same holds for fewer points than neighbours; the largest number of a range is not used (C103)."
  },
  {
   "property": "C185",
   "status": "partial",
   "theorems": [
    "Aleph.C185_output_partial",
    "Aleph.C185_isolated",
    "Aleph.C185_failures"
   ],
   "note": "Proved for points with at least two coordinates. The code violates the property: the values of points without edges are not numbers, which happens for a single point and for points that occur three times (C185_isolated); points with one coordinate, and files without points, are undefined behaviour (C185_failures)."
  },
  {
   "property": "C186",
   "status": "partial",
   "theorems": [
    "Aleph.C186_output_partial",
    "Aleph.C186_sphere",
    "Aleph.C186_equidistant",
    "Aleph.C186_circle",
    "Aleph.C186_failures"
   ],
   "note": "Proved for solvers with ascending eigenvalues and neighbours that do not belong to a sphere or plane. The code violates the property for points of a sphere: it never writes the curvature of this sphere unless by chance (C186_sphere), and zero for three points of a circle (C186_circle). Numbers of neighbours that are zero or too large are undefined behaviour (C186_failures)."
  },
  {
   "property": "C187",
   "status": "partial",
   "theorems": [
    "Aleph.C187_diagram_partial",
    "Aleph.C187_transformation_partial",
    "Aleph.C187_identity_partial",
    "Aleph.C187_failures"
   ],
   "note": "Proved for spectra with samples and, if intensities are normalised, at least two samples with a positive total intensity. The code violates the property in the other cases: a file without samples violates an assertion (C187_failures), a single sample is not normalised (C132_single), negative totals lead to wrong complexes (C132_negative), the largest intensity is paired with zero instead of the smallest intensity, and only one of several samples with the same position is transformed."
  },
  {
   "property": "C188",
   "status": "partial",
   "theorems": [
    "Aleph.C188_output_partial",
    "Aleph.C188_sphere_partial",
    "Aleph.C188_contrast_partial",
    "Aleph.C188_failures"
   ],
   "note": "Proved as an equivalence for all files with at most 2^32 - 1 intensities per patch. The code violates the property: it raises an exception unless the filter keeps all patches (C188_output_partial, C188_failures), the contrast of a normalised patch is not one (C188_contrast_partial), and the points need not lie on the sphere as the sum of squares is truncated (C188_sphere_partial)."
  },
  {
   "property": "C189",
   "status": "partial",
   "theorems": [
    "Aleph.C189_graph_partial",
    "Aleph.C189_lower",
    "Aleph.C189_upper_partial",
    "Aleph.C189_unsorted"
   ],
   "note": "The graph and the lower filtration are proved for all strata, random numbers and weights, as long as the number of vertices does not exceed the range of vertex indices. The code violates the property: only consecutive strata are connected (C189_graph_partial), and the upper filtration is returned without being sorted (C189_upper_partial, C189_unsorted)."
  },
  {
   "property": "C19",
   "status": "proved",
   "theorems": [
    "Aleph.C19_boundary",
    "Aleph.C19_codim_two"
   ],
   "note": ""
  },
  {
   "property": "C190",
   "status": "partial",
   "theorems": [
    "Aleph.C190_global",
    "Aleph.C190_local",
    "Aleph.C190_standard_partial",
    "Aleph.C190_unknown",
    "Aleph.C190_opposite",
    "Aleph.C190_absolute"
   ],
   "note": "The weights of vertices are proved for all complexes, directions and orders; the filtration is proved for the standard order and graphs without isolated vertices. The code violates the property in the other cases: an isolated vertex raises an exception (C190_global, C190_local), and the comparison for absolute weights is not an order, neither for opposite weights (C190_opposite) nor for a vertex and an edge with the same weight (C190_absolute)."
  },
  {
   "property": "C191",
   "status": "proved",
   "theorems": [
    "Aleph.C191_normalize",
    "Aleph.C191_failures"
   ],
   "note": "Proved for all weighted graphs and all strategies, with real numbers as weights."
  },
  {
   "property": "C192",
   "status": "partial",
   "theorems": [
    "Aleph.C192_diagram_partial",
    "Aleph.C192_beyond",
    "Aleph.C192_diagonal"
   ],
   "note": "Proved for all connected graphs with the standard filtration and global weights. Missing: the absolute filtration, whose order is undefined (C190). The code violates the comments on removed points and on the range of values."
  },
  {
   "property": "C193",
   "status": "partial",
   "theorems": [
    "Aleph.C193_standardize",
    "Aleph.C193_strata",
    "Aleph.C193_diagrams_partial",
    "Aleph.C193_inverted",
    "Aleph.C193_not_closed",
    "Aleph.C193_regular",
    "Aleph.C193_missing"
   ],
   "note": "Proved for all filtered complexes of dimension two, and of dimension three unless the meaning is inverted, with at least one singular vertex. The code violates the property otherwise: without singular vertices, it ends by an exception; for the inverted meaning in dimension three, edges with a single singular vertex belong to the stratum."
  },
  {
   "property": "C194",
   "status": "proved",
   "theorems": [
    "Aleph.C194_classes"
   ],
   "note": "Proved for all sequences of diagrams over a linear order."
  },
  {
   "property": "C20",
   "status": "proved",
   "theorems": [
    "Aleph.C20_strict_total_order",
    "Aleph.C20_faces_less"
   ],
   "note": ""
  },
  {
   "property": "C21",
   "status": "proved",
   "theorems": [
    "Aleph.C21_data_strict_total",
    "Aleph.C21_sort_unique",
    "Aleph.C21_data_faces_first",
    "Aleph.C21_data_less",
    "Aleph.C21_lower_star",
    "Aleph.C21_upper_star",
    "Aleph.C21_star_values"
   ],
   "note": ""
  },
  {
   "property": "C22",
   "status": "proved",
   "theorems": [
    "Aleph.C22_history",
    "Aleph.C22_history_distinct",
    "Aleph.C22_calls_complete",
    "Aleph.C22_lookups",
    "Aleph.C22_push_back",
    "Aleph.C22_replace",
    "Aleph.C22_dimension",
    "Aleph.C22_vertices"
   ],
   "note": ""
  },
  {
   "property": "C23",
   "status": "proved",
   "theorems": [
    "Aleph.C23_remove_terminates",
    "Aleph.C23_remove",
    "Aleph.C23_remove_general"
   ],
   "note": ""
  },
  {
   "property": "C24",
   "status": "proved",
   "theorems": [
    "Aleph.C24_createMissingFaces",
    "Aleph.C24_closed_unchanged",
    "Aleph.C24_shared_face_data"
   ],
   "note": "a missing face shared by several simplices receives the data of the first one (witness)"
  },
  {
   "property": "C25",
   "status": "proved",
   "theorems": [
    "Aleph.C25_recalculateWeights_general",
    "Aleph.C25_recalculateWeights_max",
    "Aleph.C25_recalculateWeights_min",
    "Aleph.C25_vertex_weights"
   ],
   "note": ""
  },
  {
   "property": "C26",
   "status": "proved",
   "theorems": [
    "Aleph.C26_cliques",
    "Aleph.C26_faceClosed",
    "Aleph.C26_order_witness"
   ],
   "note": ""
  },
  {
   "property": "C27",
   "status": "proved",
   "theorems": [
    "Aleph.C27_maximum_weight",
    "Aleph.C27_expansion_weights",
    "Aleph.C27_maximum_data",
    "Aleph.C27_negative_witness",
    "Aleph.C27_out_of_bounds_witness"
   ],
   "note": ""
  },
  {
   "property": "C28",
   "status": "proved",
   "theorems": [
    "Aleph.C28_vietoris_rips",
    "Aleph.C28_vietoris_rips_values"
   ],
   "note": ""
  },
  {
   "property": "C29",
   "status": "proved",
   "theorems": [
    "Aleph.C29_bron_kerbosch",
    "Aleph.C29_missing_vertex_witness"
   ],
   "note": ""
  },
  {
   "property": "C30",
   "status": "proved",
   "theorems": [
    "Aleph.C30_koch",
    "Aleph.C30_agree",
    "Aleph.C30_cover"
   ],
   "note": ""
  },
  {
   "property": "C31",
   "status": "proved",
   "theorems": [
    "Aleph.C31_floyd_warshall",
    "Aleph.C31_missing_vertex_witness"
   ],
   "note": ""
  },
  {
   "property": "C32",
   "status": "proved",
   "theorems": [
    "Aleph.C32_cone",
    "Aleph.C32_suspension",
    "Aleph.C32_default_data",
    "Aleph.C32_empty"
   ],
   "note": ""
  },
  {
   "property": "C33",
   "status": "proved",
   "theorems": [
    "Aleph.C33_spine",
    "Aleph.C33_dumb_spine",
    "Aleph.C33_homology",
    "Aleph.C33_admissible"
   ],
   "note": "The order of the hash map is an arbitrary parameter of the model."
  },
  {
   "property": "C34",
   "status": "partial",
   "theorems": [
    "Aleph.C34_euler_partial",
    "Aleph.C34_euler_wrong",
    "Aleph.C34_diagrams_partial"
   ],
   "note": "The code omits the top dimension: the result differs from the Euler characteristic for every non-empty complex (C34_euler_wrong). What is proved is the exact value computed."
  },
  {
   "property": "C35",
   "status": "proved",
   "theorems": [
    "Aleph.C35_optimal_assignment",
    "Aleph.C35_matching_cost"
   ],
   "note": "Exact arithmetic in an Archimedean ordered group; top stands for numeric_limits::max()."
  },
  {
   "property": "C36",
   "status": "proved",
   "theorems": [
    "Aleph.C36_optimal_matching",
    "Aleph.C36_dimensions",
    "Aleph.C36_projection",
    "Aleph.C36_symmetric",
    "Aleph.C36_zero",
    "Aleph.C36_equal_diagrams",
    "Aleph.C36_order_independent"
   ],
   "note": "Exact arithmetic; std::pow is a pair of parameters; numeric_limits::max() must exceed the cost of the empty matching, which excludes unpaired points with infinite coordinates."
  },
  {
   "property": "C37",
   "status": "proved",
   "theorems": [
    "Aleph.C37_infinity_distance",
    "Aleph.C37_hausdorff",
    "Aleph.C37_empty",
    "Aleph.C37_metric"
   ],
   "note": ""
  },
  {
   "property": "C38",
   "status": "partial",
   "theorems": [
    "Aleph.C38_empty_second_partial",
    "Aleph.C38_single_points_partial",
    "Aleph.C38_undefined",
    "Aleph.C38_wrong"
   ],
   "note": "The code does not calculate the Bottleneck distance (C38_wrong): the projections of all points of the second diagram use the same edge, and edges between projections are missing. What is proved is that the result is right if the second diagram is empty and the first has at least two points, or if both have exactly one point; and that the result is undefined if the second diagram is empty and the first has at most one point."
  },
  {
   "property": "C39",
   "status": "proved",
   "theorems": [
    "Aleph.C39_removeDiagonal",
    "Aleph.C39_removeUnpaired",
    "Aleph.C39_removeDuplicates",
    "Aleph.C39_merge",
    "Aleph.C39_add",
    "Aleph.C39_betti",
    "Aleph.C39_equality",
    "Aleph.C39_equality_witness",
    "Aleph.C39_insert_erase"
   ],
   "note": ""
  },
  {
   "property": "C40",
   "status": "partial",
   "theorems": [
    "Aleph.C40_active_intervals_partial",
    "Aleph.C40_inverted_partial",
    "Aleph.C40_diagonal_witness",
    "Aleph.C40_successor_witness",
    "Aleph.C40_both_sides_witness"
   ],
   "note": "Proved for diagrams on one side of the diagonal whose smallest coordinate, if it belongs to a diagonal point, is positive, and for a successor function that fits the diagram; the witnesses show that the program is undefined or wrong otherwise."
  },
  {
   "property": "C41",
   "status": "proved",
   "theorems": [
    "Aleph.C41_symmetric_matrix",
    "Aleph.C41_range",
    "Aleph.C41_ushort_witness"
   ],
   "note": ""
  },
  {
   "property": "C42",
   "status": "proved",
   "theorems": [
    "Aleph.C42_construction",
    "Aleph.C42_evaluation",
    "Aleph.C42_sum",
    "Aleph.C42_scalars",
    "Aleph.C42_abs",
    "Aleph.C42_distance",
    "Aleph.C42_equality",
    "Aleph.C42_maximum",
    "Aleph.C42_integral",
    "Aleph.C42_constructed_integral",
    "Aleph.C42_lp_distance",
    "Aleph.C42_sum_witness",
    "Aleph.C42_equality_witness",
    "Aleph.C42_sign_witness"
   ],
   "note": "Exact arithmetic; natural exponents for the integral; the final root std::pow(norm,1/p) is a parameter. The witnesses show what fails outside of the common domain, for comparisons of functions with different domains, and for the absolute value and integral of sums."
  },
  {
   "property": "C43",
   "status": "proved",
   "theorems": [
    "Aleph.C43_cover_tree",
    "Aleph.C43_is_valid",
    "Aleph.C43_radius"
   ],
   "note": "Any symmetric distance with triangle inequality, exact arithmetic in an Archimedean ordered field. The query functions are modelled for non-empty trees; on an empty tree they dereference a null pointer. isHarmonic and print are not modelled."
  },
  {
   "property": "C44",
   "status": "proved",
   "theorems": [
    "Aleph.C44_sink_source",
    "Aleph.C44_order_independent",
    "Aleph.C44_admissible_pairs",
    "Aleph.C44_source"
   ],
   "note": "Shortest paths are calculated by the Boost Graph Library; its contract is a hypothesis (IsApsp), which exists_apsp shows to be satisfiable. Orders of hash maps are parameters."
  },
  {
   "property": "C45",
   "status": "proved",
   "theorems": [
    "Aleph.C45_witness_complex",
    "Aleph.C45_empty",
    "Aleph.C45_nu_out_of_range",
    "Aleph.C45_random_landmarks",
    "Aleph.C45_max_min_landmarks",
    "Aleph.C45_max_min_nodup",
    "Aleph.C45_max_min_range"
   ],
   "note": "Distances are a function into an ordered set with addition; random choices and traversal orders are parameters."
  },
  {
   "property": "C46",
   "status": "proved",
   "theorems": [
    "Aleph.C46_filter",
    "Aleph.C46_skeleton"
   ],
   "note": ""
  },
  {
   "property": "C47",
   "status": "proved",
   "theorems": [
    "Aleph.C47_partition",
    "Aleph.C47_perversity",
    "Aleph.C47_perversity_gm",
    "Aleph.C47_perversity_gm_not_normalised",
    "Aleph.C47_last_intersection",
    "Aleph.C47_intersection_homology",
    "Aleph.C47_betti",
    "Aleph.C47_any_order",
    "Aleph.C47_betti_any_order",
    "Aleph.C47_unsorted_wrong",
    "Aleph.C47_inconsistent"
   ],
   "note": "p(2)=0 is documented for PerversityGM but not enforced (C47_perversity_gm_not_normalised). The strata need not be nested or be sub-complexes. Complexes need only be sorted if the matrix is not dualized (C47_any_order, C47_unsorted_wrong)."
  },
  {
   "property": "C48",
   "status": "proved",
   "theorems": [
    "Aleph.C48_subdivision",
    "Aleph.C48_missing_face"
   ],
   "note": "The functor receives the number of vertices of a simplex, not its dimension as documented; the theorem states what the code computes."
  },
  {
   "property": "C49",
   "status": "proved",
   "theorems": [
    "Aleph.C49_history",
    "Aleph.C49_accumulate",
    "Aleph.C49_accumulate_sorted"
   ],
   "note": ""
  },
  {
   "property": "C50",
   "status": "partial",
   "theorems": [
    "Aleph.C50_add",
    "Aleph.C50_evaluation",
    "Aleph.C50_common_end_point",
    "Aleph.C50_negative_witness",
    "Aleph.C50_scalars",
    "Aleph.C50_integral",
    "Aleph.C50_maximum",
    "Aleph.C50_sum_wrong",
    "Aleph.C50_sum_partial",
    "Aleph.C50_sum_dip_witness"
   ],
   "note": "Everything but the sum of two step functions is proved in full. C50_sum_partial: the sum is pointwise between end points if no summand has a gap or a dip; without these conditions it is wrong (C50_sum_wrong, C50_sum_dip_witness). At a common end point of two intervals negative values are not compared by absolute value (C50_negative_witness)."
  },
  {
   "property": "C51",
   "status": "proved",
   "theorems": [
    "Aleph.C51_pipeline",
    "Aleph.C51_points_above_diagonal",
    "Aleph.C51_betti",
    "Aleph.C51_persistent_betti",
    "Aleph.C51_persistent_betti_superlevel"
   ],
   "note": ""
  },
  {
   "property": "C52",
   "status": "proved",
   "theorems": [
    "Aleph.C52_tie_breaking"
   ],
   "note": ""
  },
  {
   "property": "C53",
   "status": "proved",
   "theorems": [
    "Aleph.C53_sparse_matrix",
    "Aleph.C53_indices"
   ],
   "note": ""
  },
  {
   "property": "C54",
   "status": "proved",
   "theorems": [
    "Aleph.C54_combinations"
   ],
   "note": ""
  },
  {
   "property": "C55",
   "status": "proved",
   "theorems": [
    "Aleph.C55_top_down",
    "Aleph.C55_agrees_with_bottom_up",
    "Aleph.C55_weights"
   ],
   "note": ""
  },
  {
   "property": "C56",
   "status": "proved",
   "theorems": [
    "Aleph.C56_clique_graph",
    "Aleph.C56_maximum"
   ],
   "note": ""
  },
  {
   "property": "C57",
   "status": "proved",
   "theorems": [
    "Aleph.C57_euler_poincare"
   ],
   "note": ""
  },
  {
   "property": "C58",
   "status": "proved",
   "theorems": [
    "Aleph.C58_nearest_neighbours",
    "Aleph.C58_zero",
    "Aleph.C58_empty_witness"
   ],
   "note": ""
  },
  {
   "property": "C59",
   "status": "proved",
   "theorems": [
    "Aleph.C59_for_each_combination",
    "Aleph.C59_combinations"
   ],
   "note": ""
  },
  {
   "property": "C60",
   "status": "proved",
   "theorems": [
    "Aleph.C60_values",
    "Aleph.C60_metric",
    "Aleph.C60_euclidean",
    "Aleph.C60_out_of_range"
   ],
   "note": "Exact arithmetic. The positive bound given as last argument is ignored by the Euclidean distance."
  },
  {
   "property": "C61",
   "status": "proved",
   "theorems": [
    "Aleph.C61_k_nearest",
    "Aleph.C61_self",
    "Aleph.C61_too_many",
    "Aleph.C61_radius"
   ],
   "note": "The order of indices with equal distances is left open by std::sort; the contract of std::sort is a hypothesis that exists_isStdSort shows to be satisfiable."
  },
  {
   "property": "C62",
   "status": "proved",
   "theorems": [
    "Aleph.C62_cech",
    "Aleph.C62_cech_real"
   ],
   "note": "The smallest enclosing ball is calculated by the external library Miniball; its contract is a hypothesis (IsMiniball), which exists_isMiniball shows to be satisfiable."
  },
  {
   "property": "C63",
   "status": "proved",
   "theorems": [
    "Aleph.C63_skeleton",
    "Aleph.C63_lune",
    "Aleph.C63_gabriel",
    "Aleph.C63_antitone"
   ],
   "note": "Coordinates in an ordered field, exact arithmetic; the distance is the Euclidean one."
  },
  {
   "property": "C64",
   "status": "proved",
   "theorems": [
    "Aleph.C64_path",
    "Aleph.C64_lines",
    "Aleph.C64_matrix",
    "Aleph.C64_stale_dimensions"
   ],
   "note": "Parsing of numbers is not modelled. For a matrix that was filled before, stale column dimensions survive (C64_stale_dimensions), hence the restriction to default-constructed matrices."
  },
  {
   "property": "C65",
   "status": "partial",
   "theorems": [
    "Aleph.C65_pairing_partial",
    "Aleph.C65_throws",
    "Aleph.C65_single_value"
   ],
   "note": "The code violates the property: for at least two values the function always throws (C65_throws), for a single value the result is empty (C65_single_value). Proved: the pairing itself is the persistence pairing and only the global minimum is unpaired."
  },
  {
   "property": "C66",
   "status": "proved",
   "theorems": [
    "Aleph.C66_total_persistence",
    "Aleph.C66_infinity_norm",
    "Aleph.C66_p_norm",
    "Aleph.C66_limit"
   ],
   "note": "over the real numbers; rounding and overflow are not modelled"
  },
  {
   "property": "C67",
   "status": "proved",
   "theorems": [
    "Aleph.C67_weighted_persistence",
    "Aleph.C67_persistence"
   ],
   "note": "values in an ordered field; rounding is not modelled"
  },
  {
   "property": "C68",
   "status": "partial",
   "theorems": [
    "Aleph.C68_linear_kernel_partial",
    "Aleph.C68_pseudo_metric_wrong",
    "Aleph.C68_default_weight"
   ],
   "note": "the linear kernel is right; the pseudo-metric is zero and the Gaussian kernel one for all diagrams, because the same kernel value is used three times"
  },
  {
   "property": "C69",
   "status": "proved",
   "theorems": [
    "Aleph.C69_kernel",
    "Aleph.C69_metric",
    "Aleph.C69_sigma",
    "Aleph.C69_feature_map"
   ],
   "note": "exact real arithmetic; the smoothing parameter does not enter the exponent, unlike in the literature"
  },
  {
   "property": "C70",
   "status": "proved",
   "theorems": [
    "Aleph.C70_trim",
    "Aleph.C70_split",
    "Aleph.C70_whitespace"
   ],
   "note": "regular expressions that match sequences of characters of a set"
  },
  {
   "property": "C71",
   "status": "proved",
   "theorems": [
    "Aleph.C71_new",
    "Aleph.C71_get",
    "Aleph.C71_set",
    "Aleph.C71_concatenation",
    "Aleph.C71_equality"
   ],
   "note": ""
  },
  {
   "property": "C72",
   "status": "partial",
   "theorems": [
    "Aleph.C72_load_partial",
    "Aleph.C72_unterminated",
    "Aleph.C72_round_trip"
   ],
   "note": "files without a final line feed are not loaded; conversion of numbers is a parameter"
  },
  {
   "property": "C73",
   "status": "proved",
   "theorems": [
    "Aleph.C73_grid",
    "Aleph.C73_maximum",
    "Aleph.C73_empty",
    "Aleph.C73_count",
    "Aleph.C73_euler"
   ],
   "note": ""
  },
  {
   "property": "C74",
   "status": "partial",
   "theorems": [
    "Aleph.C74_read_partial",
    "Aleph.C74_empty_line",
    "Aleph.C74_comment"
   ],
   "note": "the documented empty lines and comments are rejected by the code; conversion of numbers is a parameter"
  },
  {
   "property": "C75",
   "status": "partial",
   "theorems": [
    "Aleph.C75_graph_partial",
    "Aleph.C75_default",
    "Aleph.C75_maximum_wrong"
   ],
   "note": "the order is a filtration order if and only if no edge is lighter than the vertices, which fails for two of the three strategies"
  },
  {
   "property": "C76",
   "status": "partial",
   "theorems": [
    "Aleph.C76_read_partial",
    "Aleph.C76_comment",
    "Aleph.C76_not_square"
   ],
   "note": "a text that starts with a comment is silently not read"
  },
  {
   "property": "C77",
   "status": "partial",
   "theorems": [
    "Aleph.C77_read_partial",
    "Aleph.C77_numbering",
    "Aleph.C77_numeric",
    "Aleph.C77_labels",
    "Aleph.C77_reuse_wrong"
   ],
   "note": "numeric files and labelled files with a fresh reader are right; a reader that is used again gives one number to different labels"
  },
  {
   "property": "C78",
   "status": "partial",
   "theorems": [
    "Aleph.C78_entropy_partial",
    "Aleph.C78_bounds",
    "Aleph.C78_invariant",
    "Aleph.C78_diagonal_wrong"
   ],
   "note": "a point on the diagonal makes the result undefined (NaN) although it should contribute nothing; proved exactly for all other diagrams"
  },
  {
   "property": "C79",
   "status": "proved",
   "theorems": [
    "Aleph.C79_nearest_neighbours",
    "Aleph.C79_bounds",
    "Aleph.C79_grid",
    "Aleph.C79_grid_degenerate"
   ],
   "note": "undefined outcomes are part of the statements"
  },
  {
   "property": "C80",
   "status": "partial",
   "theorems": [
    "Aleph.C80_curvature_partial",
    "Aleph.C80_vertices",
    "Aleph.C80_correct_iff",
    "Aleph.C80_graph"
   ],
   "note": "the code is wrong for simplices without cofaces; exact value proved for all complexes"
  },
  {
   "property": "C81",
   "status": "partial",
   "theorems": [
    "Aleph.C81_weighted_partial",
    "Aleph.C81_top",
    "Aleph.C81_unit",
    "Aleph.C81_wrong"
   ],
   "note": "absolute value of the sum instead of the sum of absolute values; equality in the top dimension and for unit weights"
  },
  {
   "property": "C82",
   "status": "partial",
   "theorems": [
    "Aleph.C82_degrees_partial",
    "Aleph.C82_degrees_iff",
    "Aleph.C82_handshake"
   ],
   "note": "isolated vertices are omitted, contrary to the documentation"
  },
  {
   "property": "C83",
   "status": "proved",
   "theorems": [
    "Aleph.C83_n_degree",
    "Aleph.C83_defects",
    "Aleph.C83_total",
    "Aleph.C83_gauss_bonnet"
   ],
   "note": ""
  },
  {
   "property": "C84",
   "status": "partial",
   "theorems": [
    "Aleph.C84_envelope_partial",
    "Aleph.C84_above",
    "Aleph.C84_overrun",
    "Aleph.C84_arbitrary"
   ],
   "note": "correct unless the memory behind the end of an array holds the largest coordinate; the program reads it for every non-empty diagram"
  },
  {
   "property": "C85",
   "status": "proved",
   "theorems": [
    "Aleph.C85_mean",
    "Aleph.C85_mean_affine",
    "Aleph.C85_variance",
    "Aleph.C85_variance_affine",
    "Aleph.C85_covariance",
    "Aleph.C85_shape",
    "Aleph.C85_shape_affine",
    "Aleph.C85_pearson"
   ],
   "note": ""
  },
  {
   "property": "C86",
   "status": "proved",
   "theorems": [
    "Aleph.C86_median",
    "Aleph.C86_half",
    "Aleph.C86_optimal"
   ],
   "note": ""
  },
  {
   "property": "C87",
   "status": "partial",
   "theorems": [
    "Aleph.C87_replicates",
    "Aleph.C87_all_samples",
    "Aleph.C87_standard_error",
    "Aleph.C87_percentile_partial",
    "Aleph.C87_percentile_none",
    "Aleph.C87_basic",
    "Aleph.C87_student_wrong"
   ],
   "note": "the interval with Student's distribution has level 1 - 2 alpha; no interval for alpha = 0"
  },
  {
   "property": "C88",
   "status": "proved",
   "theorems": [
    "Aleph.C88_erdos_renyi",
    "Aleph.C88_all_graphs",
    "Aleph.C88_weighted",
    "Aleph.C88_all_weights",
    "Aleph.C88_divergence"
   ],
   "note": "the weighted generator diverges if no decision ever fails"
  },
  {
   "property": "C89",
   "status": "proved",
   "theorems": [
    "Aleph.C89_eccentricities",
    "Aleph.C89_equivariance",
    "Aleph.C89_orders"
   ],
   "note": "undefined for order zero and a single point, as stated"
  },
  {
   "property": "C90",
   "status": "partial",
   "theorems": [
    "Aleph.C90_gaussian_partial",
    "Aleph.C90_iff",
    "Aleph.C90_monotone",
    "Aleph.C90_zero"
   ],
   "note": "the kernel has the bandwidth as variance instead of its square; exact value proved, and exactly when it is right"
  },
  {
   "property": "C91",
   "status": "proved",
   "theorems": [
    "Aleph.C91_density",
    "Aleph.C91_monotone"
   ],
   "note": ""
  },
  {
   "property": "C92",
   "status": "proved",
   "theorems": [
    "Aleph.C92_lens_depth",
    "Aleph.C92_order_only"
   ],
   "note": ""
  },
  {
   "property": "C93",
   "status": "proved",
   "theorems": [
    "Aleph.C93_smoothing",
    "Aleph.C93_range",
    "Aleph.C93_affine",
    "Aleph.C93_too_many"
   ],
   "note": ""
  },
  {
   "property": "C94",
   "status": "proved",
   "theorems": [
    "Aleph.C94_integral",
    "Aleph.C94_fractions"
   ],
   "note": ""
  },
  {
   "property": "C95",
   "status": "proved",
   "theorems": [
    "Aleph.C95_dimension",
    "Aleph.C95_power_law",
    "Aleph.C95_scaling",
    "Aleph.C95_scaled_points"
   ],
   "note": ""
  },
  {
   "property": "C96",
   "status": "proved",
   "theorems": [
    "Aleph.C96_adjacency",
    "Aleph.C96_laplacian",
    "Aleph.C96_semidefinite"
   ],
   "note": ""
  },
  {
   "property": "C97",
   "status": "partial",
   "theorems": [
    "Aleph.C97_kernel",
    "Aleph.C97_trace",
    "Aleph.C97_diffusion",
    "Aleph.C97_all_partial"
   ],
   "note": "The code violates two parts: the determinant is always zero, and the evaluation for all vertices at once always fails. Everything else is proved."
  },
  {
   "property": "C98",
   "status": "partial",
   "theorems": [
    "Aleph.C98_pseudoinverse_partial"
   ],
   "note": "The code violates the property for all complexes with at least two vertices; proved is exactly this, and the correct result for a single vertex."
  },
  {
   "property": "C99",
   "status": "proved",
   "theorems": [
    "Aleph.C99_bisection",
    "Aleph.C99_parts"
   ],
   "note": ""
  }
 ]
}