# Axioms of the theorems named in MANIFEST.json

| theorem | axioms |
|---|---|
| Aleph.C01_addColumns | propext, Quot.sound |
| Aleph.C01_addColumns_twice | propext, Classical.choice, Quot.sound |
| Aleph.C01_addColumns_throws | propext, Classical.choice, Quot.sound |
| Aleph.C02_representations_interchangeable | propext, Classical.choice, Quot.sound |
| Aleph.C02_columns_ascending | propext, Classical.choice, Quot.sound |
| Aleph.C02_set_column | propext, Classical.choice, Quot.sound |
| Aleph.C02_clear_column | propext, Quot.sound |
| Aleph.C02_set_dimension | propext, Quot.sound |
| Aleph.C02_set_num_columns | propext, Quot.sound |
| Aleph.C02_duplicates_differ | propext |
| Aleph.C03_standard_reduced | propext, Classical.choice, Quot.sound |
| Aleph.C04_column_combination | propext, Classical.choice, Quot.sound |
| Aleph.C04_prefix_spans | propext, Classical.choice, Quot.sound |
| Aleph.C05_pairing_is_persistence_pairing | propext, Classical.choice, Quot.sound |
| Aleph.C05_pairing_all_algorithms | propext, Classical.choice, Quot.sound |
| Aleph.C06_twist_eq_standard | propext, Classical.choice, Quot.sound |
| Aleph.C06_twist_reduced | propext, Classical.choice, Quot.sound |
| Aleph.C07_dualize_entries | propext, Classical.choice, Quot.sound |
| Aleph.C07_dualize_involutive | propext, Classical.choice, Quot.sound |
| Aleph.C07_dualize_shift | propext |
| Aleph.C08_dual_pairing | propext, Classical.choice, Quot.sound |
| Aleph.C09_pairing_wellformed | propext, Classical.choice, Quot.sound |
| Aleph.C09_pairing_complete | propext, Classical.choice, Quot.sound |
| Aleph.C10_betti | propext, Classical.choice, Quot.sound |
| Aleph.C100_gap | propext, Classical.choice, Quot.sound |
| Aleph.C100_sampling_partial | propext, Classical.choice, Quot.sound |
| Aleph.C101_estimate | propext, Classical.choice, Quot.sound |
| Aleph.C101_univariate | propext, Classical.choice, Quot.sound |
| Aleph.C101_multivariate_partial | propext, Classical.choice, Quot.sound |
| Aleph.C102_nearest | propext, Classical.choice, Quot.sound |
| Aleph.C102_invariance | propext, Classical.choice, Quot.sound |
| Aleph.C103_regression_partial | propext, Classical.choice, Quot.sound |
| Aleph.C103_unused | propext, Classical.choice, Quot.sound |
| Aleph.C104_likelihood | propext, Classical.choice, Quot.sound |
| Aleph.C104_invariance | propext, Classical.choice, Quot.sound |
| Aleph.C105_components_partial | propext, Classical.choice, Quot.sound |
| Aleph.C105_invariance | propext, Classical.choice, Quot.sound |
| Aleph.C106_gap | propext, Classical.choice, Quot.sound |
| Aleph.C106_principal | propext, Classical.choice, Quot.sound |
| Aleph.C106_local | propext, Classical.choice, Quot.sound |
| Aleph.C107_intersect | propext, Classical.choice, Quot.sound |
| Aleph.C107_empty | propext, Quot.sound |
| Aleph.C108_constrained_partial | propext, Classical.choice, Quot.sound |
| Aleph.C108_missed | propext, Quot.sound |
| Aleph.C109_mean_partial | propext, Classical.choice, Quot.sound |
| Aleph.C109_equal | propext, Classical.choice, Quot.sound |
| Aleph.C109_dimension | propext, Quot.sound |
| Aleph.C109_empty | propext, Quot.sound |
| Aleph.C109_divergence | propext, Classical.choice, Quot.sound |
| Aleph.C11_boundary_matrix | propext, Classical.choice, Quot.sound |
| Aleph.C11_boundary_of_boundary | propext, Classical.choice, Quot.sound |
| Aleph.C11_is_boundary_matrix | propext, Classical.choice, Quot.sound |
| Aleph.C11_missing_faces_wrong | none |
| Aleph.C110_load | propext, Classical.choice, Quot.sound |
| Aleph.C110_indented_comment | propext, Classical.choice, Quot.sound |
| Aleph.C110_round_trip | propext, Classical.choice, Quot.sound |
| Aleph.C110_missing_file | propext |
| Aleph.C110_unchecked_index | propext, Classical.choice, Quot.sound |
| Aleph.C111_load | propext, Classical.choice, Quot.sound |
| Aleph.C111_blank_line | propext, Classical.choice, Quot.sound |
| Aleph.C111_round_trip | propext, Classical.choice, Quot.sound |
| Aleph.C112_write_partial | propext, Classical.choice, Quot.sound |
| Aleph.C112_read | propext, Classical.choice, Quot.sound |
| Aleph.C112_single | propext, Classical.choice, Quot.sound |
| Aleph.C112_round_trip | propext, Classical.choice, Quot.sound |
| Aleph.C112_injection | propext, Classical.choice, Quot.sound |
| Aleph.C112_key | propext, Classical.choice, Quot.sound |
| Aleph.C113_pairing | propext, Classical.choice, Quot.sound |
| Aleph.C113_zero_dimensional | propext, Classical.choice, Quot.sound |
| Aleph.C113_positions | propext, Classical.choice, Quot.sound |
| Aleph.C114_children | propext, Classical.choice, Quot.sound |
| Aleph.C114_forest | propext, Classical.choice, Quot.sound |
| Aleph.C114_trees | propext, Classical.choice, Quot.sound |
| Aleph.C115_parents | propext, Classical.choice, Quot.sound |
| Aleph.C116_vertex | propext, Classical.choice, Quot.sound |
| Aleph.C116_default_partial | propext, Classical.choice, Quot.sound |
| Aleph.C116_vertices | propext, Classical.choice, Quot.sound |
| Aleph.C116_face | propext, Classical.choice, Quot.sound |
| Aleph.C116_bound | propext, Quot.sound |
| Aleph.C116_exception_debris | propext |
| Aleph.C116_hang | propext, Quot.sound |
| Aleph.C117_faces_partial | propext, Classical.choice, Quot.sound |
| Aleph.C117_returns | propext, Classical.choice, Quot.sound |
| Aleph.C117_reported | propext, Classical.choice, Quot.sound |
| Aleph.C117_missing | propext, Quot.sound |
| Aleph.C118_neighbours_partial | propext, Classical.choice, Quot.sound |
| Aleph.C118_link | propext, Classical.choice, Quot.sound |
| Aleph.C118_lower_higher | propext, Classical.choice, Quot.sound |
| Aleph.C118_missing | propext, Quot.sound |
| Aleph.C119_components_partial | propext, Classical.choice, Quot.sound |
| Aleph.C119_growing | propext, Classical.choice, Quot.sound |
| Aleph.C119_overestimated | propext |
| Aleph.C12_diagrams | propext, Classical.choice, Quot.sound |
| Aleph.C12_function_values | propext, Classical.choice, Quot.sound |
| Aleph.C51_points_above_diagonal | propext, Classical.choice, Quot.sound |
| Aleph.C120_star_partial | propext, Classical.choice, Quot.sound |
| Aleph.C120_missing | propext, Quot.sound |
| Aleph.C121_segments | propext, Classical.choice, Quot.sound |
| Aleph.C121_extremum | propext, Quot.sound |
| Aleph.C122_sphere | propext, Classical.choice, Quot.sound |
| Aleph.C122_onto | propext, Classical.choice, Quot.sound |
| Aleph.C122_angles | propext, Classical.choice, Quot.sound |
| Aleph.C122_uniform | propext, Classical.choice, Quot.sound |
| Aleph.C123_torus | propext, Classical.choice, Quot.sound |
| Aleph.C123_onto | propext, Classical.choice, Quot.sound |
| Aleph.C123_rejection | propext, Classical.choice, Quot.sound |
| Aleph.C123_uniform | propext, Classical.choice, Quot.sound |
| Aleph.C124_sphere_partial | propext, Classical.choice, Quot.sound |
| Aleph.C124_wrong_centre | propext, Classical.choice, Quot.sound |
| Aleph.C124_plane | propext, Classical.choice, Quot.sound |
| Aleph.C124_curvature | propext, Classical.choice, Quot.sound |
| Aleph.C124_throws | propext, Classical.choice, Quot.sound |
| Aleph.C124_history | propext, Classical.choice, Quot.sound |
| Aleph.C125_equality_partial | propext |
| Aleph.C125_dimensions | propext, Quot.sound |
| Aleph.C125_order | propext, Quot.sound |
| Aleph.C125_total_order | propext |
| Aleph.C125_output | propext, Quot.sound |
| Aleph.C126_format | propext, Classical.choice, Quot.sound |
| Aleph.C126_order | propext, Classical.choice, Quot.sound |
| Aleph.C126_zero | propext, Classical.choice, Quot.sound |
| Aleph.C127_laws_partial | propext, Quot.sound |
| Aleph.C127_elements | propext, Quot.sound |
| Aleph.C127_scale | propext |
| Aleph.C127_truncation | propext, Classical.choice, Quot.sound |
| Aleph.C127_allclose | propext, Classical.choice, Quot.sound |
| Aleph.C127_allclose_symmetry | propext, Classical.choice, Quot.sound |
| Aleph.C127_bounds | propext |
| Aleph.C128_read_partial | propext, Classical.choice, Quot.sound |
| Aleph.C128_split_name | propext, Classical.choice, Quot.sound |
| Aleph.C128_stray | propext, Classical.choice, Quot.sound |
| Aleph.C128_unfinished | propext, Classical.choice, Quot.sound |
| Aleph.C128_hang | propext, Classical.choice, Quot.sound |
| Aleph.C128_empty_simplex | propext, Classical.choice, Quot.sound |
| Aleph.C128_file | propext |
| Aleph.C129_read_partial | propext, Classical.choice, Quot.sound |
| Aleph.C129_isolated | propext, Classical.choice, Quot.sound |
| Aleph.C129_undeclared | propext, Classical.choice, Quot.sound |
| Aleph.C129_duplicate | propext, Classical.choice, Quot.sound |
| Aleph.C129_again | propext, Classical.choice, Quot.sound |
| Aleph.C129_missing | propext, Classical.choice, Quot.sound |
| Aleph.C129_vertex_error | propext, Classical.choice, Quot.sound |
| Aleph.C129_empty_line | propext, Classical.choice, Quot.sound |
| Aleph.C129_edge_error | propext, Classical.choice, Quot.sound |
| Aleph.C129_negative | propext, Classical.choice, Quot.sound |
| Aleph.C129_joined | propext, Classical.choice, Quot.sound |
| Aleph.C129_file | propext, Classical.choice, Quot.sound |
| Aleph.C13_find | propext, Classical.choice, Quot.sound |
| Aleph.C13_terminate | propext, Classical.choice, Quot.sound |
| Aleph.C13_queries_harmless | propext, Classical.choice, Quot.sound |
| Aleph.C130_graph_partial | propext, Classical.choice, Quot.sound |
| Aleph.C130_filtration | propext, Classical.choice, Quot.sound |
| Aleph.C130_nonnegative | propext, Classical.choice, Quot.sound |
| Aleph.C130_absolute | propext, Classical.choice, Quot.sound |
| Aleph.C130_read_partial | propext, Classical.choice, Quot.sound |
| Aleph.C130_lines | propext, Classical.choice, Quot.sound |
| Aleph.C130_comment | propext, Classical.choice, Quot.sound |
| Aleph.C130_file | propext |
| Aleph.C131_write | propext, Classical.choice, Quot.sound |
| Aleph.C131_exception | propext, Classical.choice, Quot.sound |
| Aleph.C131_unique | propext, Classical.choice, Quot.sound |
| Aleph.C132_spectrum | propext, Classical.choice, Quot.sound |
| Aleph.C132_normalised_partial | propext, Classical.choice, Quot.sound |
| Aleph.C132_negative | propext, Classical.choice, Quot.sound |
| Aleph.C132_single | propext, Classical.choice, Quot.sound |
| Aleph.C132_maps_partial | propext, Classical.choice, Quot.sound |
| Aleph.C132_ignored | propext, Quot.sound |
| Aleph.C132_file | propext, Quot.sound |
| Aleph.C133_graphs_partial | propext, Classical.choice, Quot.sound |
| Aleph.C133_order | propext, Classical.choice, Quot.sound |
| Aleph.C133_cross | propext, Classical.choice, Quot.sound |
| Aleph.C133_file | propext, Classical.choice, Quot.sound |
| Aleph.C133_fields | propext, Classical.choice, Quot.sound |
| Aleph.C133_isolated | propext, Classical.choice, Quot.sound |
| Aleph.C133_no_labels | propext, Classical.choice, Quot.sound |
| Aleph.C133_unknown | propext, Classical.choice, Quot.sound |
| Aleph.C134_read_partial | propext, Classical.choice, Quot.sound |
| Aleph.C134_names | propext, Classical.choice, Quot.sound |
| Aleph.C134_numbers | none |
| Aleph.C134_duplicate | propext, Classical.choice, Quot.sound |
| Aleph.C134_unknown | propext, Classical.choice, Quot.sound |
| Aleph.C134_dangling | propext, Classical.choice, Quot.sound |
| Aleph.C134_outside | propext, Classical.choice, Quot.sound |
| Aleph.C134_levels | propext, Classical.choice, Quot.sound |
| Aleph.C134_nested | propext, Classical.choice, Quot.sound |
| Aleph.C134_truncated | propext, Classical.choice, Quot.sound |
| Aleph.C134_attributes | propext, Classical.choice, Quot.sound |
| Aleph.C134_index | propext, Classical.choice, Quot.sound |
| Aleph.C134_collision | propext, Classical.choice, Quot.sound |
| Aleph.C134_file | propext, Classical.choice, Quot.sound |
| Aleph.C135_write | propext, Classical.choice, Quot.sound |
| Aleph.C135_exception | propext, Classical.choice, Quot.sound |
| Aleph.C135_read_partial | propext, Classical.choice, Quot.sound |
| Aleph.C135_lost | propext, Classical.choice, Quot.sound |
| Aleph.C135_labels | propext, Classical.choice, Quot.sound |
| Aleph.C136_index | propext, Classical.choice, Quot.sound |
| Aleph.C136_grid | propext, Classical.choice, Quot.sound |
| Aleph.C136_read_partial | propext, Classical.choice, Quot.sound |
| Aleph.C136_blank | propext, Classical.choice, Quot.sound |
| Aleph.C136_keyword | propext, Classical.choice, Quot.sound |
| Aleph.C136_few | propext, Classical.choice, Quot.sound |
| Aleph.C136_missing | propext, Classical.choice, Quot.sound |
| Aleph.C136_exception | propext, Classical.choice, Quot.sound |
| Aleph.C136_ignored | propext, Classical.choice, Quot.sound |
| Aleph.C136_number | propext, Classical.choice, Quot.sound |
| Aleph.C136_format | propext, Classical.choice, Quot.sound |
| Aleph.C137_read_partial | propext, Classical.choice, Quot.sound |
| Aleph.C137_binary | propext, Classical.choice, Quot.sound |
| Aleph.C137_empty | propext, Classical.choice, Quot.sound |
| Aleph.C137_polygon | propext, Classical.choice, Quot.sound |
| Aleph.C137_degenerate | propext, Classical.choice, Quot.sound |
| Aleph.C137_dangling | propext, Classical.choice, Quot.sound |
| Aleph.C137_truncated | propext, Classical.choice, Quot.sound |
| Aleph.C137_repeated | propext, Classical.choice, Quot.sound |
| Aleph.C137_types | propext, Classical.choice, Quot.sound |
| Aleph.C137_order | propext, Classical.choice, Quot.sound |
| Aleph.C137_exception | propext, Classical.choice, Quot.sound |
| Aleph.C138_basename | propext, Quot.sound |
| Aleph.C138_extension | propext, Classical.choice, Quot.sound |
| Aleph.C138_parts | propext, Classical.choice, Quot.sound |
| Aleph.C138_directory | propext, Quot.sound |
| Aleph.C138_temporary | none |
| Aleph.C139_missing | propext, Classical.choice, Quot.sound |
| Aleph.C139_formats | propext, Classical.choice, Quot.sound |
| Aleph.C139_functor | propext, Classical.choice, Quot.sound |
| Aleph.C139_maximum | propext, Classical.choice, Quot.sound |
| Aleph.C139_gml_labels | propext, Classical.choice, Quot.sound |
| Aleph.C139_gml_numbers | propext, Classical.choice, Quot.sound |
| Aleph.C139_pajek_labels | propext, Classical.choice, Quot.sound |
| Aleph.C139_pajek_vertices | propext, Classical.choice, Quot.sound |
| Aleph.C139_stale | propext, Classical.choice, Quot.sound |
| Aleph.C139_inconsistent | propext, Classical.choice, Quot.sound |
| Aleph.C139_unsorted | propext, Classical.choice, Quot.sound |
| Aleph.C14_roots_get | propext, Classical.choice, Quot.sound |
| Aleph.C14_merge_directional | propext, Classical.choice, Quot.sound |
| Aleph.C140_picture | propext, Classical.choice, Quot.sound |
| Aleph.C140_declared | propext, Classical.choice, Quot.sound |
| Aleph.C140_error | propext, Classical.choice, Quot.sound |
| Aleph.C140_options | propext, Classical.choice, Quot.sound |
| Aleph.C141_defined | propext, Classical.choice, Quot.sound |
| Aleph.C141_undefined | propext, Classical.choice, Quot.sound |
| Aleph.C141_normals | propext, Classical.choice, Quot.sound |
| Aleph.C141_fit_partial | propext, Classical.choice, Quot.sound |
| Aleph.C141_sphere | propext, Classical.choice, Quot.sound |
| Aleph.C141_equidistant | propext, Classical.choice, Quot.sound |
| Aleph.C141_circle | propext, Classical.choice, Quot.sound |
| Aleph.C141_order | propext, Classical.choice, Quot.sound |
| Aleph.C141_centroid | propext, Classical.choice, Quot.sound |
| Aleph.C142_calls | propext, Classical.choice, Quot.sound |
| Aleph.C143_relevance | propext, Classical.choice, Quot.sound |
| Aleph.C143_labels | propext, Classical.choice, Quot.sound |
| Aleph.C144_communities_partial | propext, Classical.choice, Quot.sound |
| Aleph.C144_heavy_vertices | propext, Classical.choice, Quot.sound |
| Aleph.C145_levels | propext, Classical.choice, Quot.sound |
| Aleph.C145_labels | propext, Classical.choice, Quot.sound |
| Aleph.C145_too_large | propext, Classical.choice, Quot.sound |
| Aleph.C145_run_partial | propext, Classical.choice, Quot.sound |
| Aleph.C145_reverse | propext, Classical.choice, Quot.sound |
| Aleph.C145_names | propext, Classical.choice, Quot.sound |
| Aleph.C146_grid | propext, Classical.choice, Quot.sound |
| Aleph.C146_field_partial | propext, Classical.choice, Quot.sound |
| Aleph.C146_transposed | propext, Classical.choice, Quot.sound |
| Aleph.C146_big_endian | propext, Classical.choice, Quot.sound |
| Aleph.C146_maximum | propext, Classical.choice, Quot.sound |
| Aleph.C146_count | propext, Classical.choice, Quot.sound |
| Aleph.C146_order | propext, Classical.choice, Quot.sound |
| Aleph.C146_other | propext |
| Aleph.C147_read_partial | propext, Classical.choice, Quot.sound |
| Aleph.C147_defined | propext, Classical.choice, Quot.sound |
| Aleph.C147_invalid | propext, Classical.choice, Quot.sound |
| Aleph.C147_missing | propext, Classical.choice, Quot.sound |
| Aleph.C147_functor | propext, Classical.choice, Quot.sound |
| Aleph.C147_undefined | propext, Classical.choice, Quot.sound |
| Aleph.C147_no_graph | propext, Classical.choice, Quot.sound |
| Aleph.C147_keys | propext, Classical.choice, Quot.sound |
| Aleph.C147_identifiers | propext, Classical.choice, Quot.sound |
| Aleph.C147_data | propext, Classical.choice, Quot.sound |
| Aleph.C147_attributes | propext, Classical.choice, Quot.sound |
| Aleph.C147_index | propext, Classical.choice, Quot.sound |
| Aleph.C147_maximum | propext, Classical.choice, Quot.sound |
| Aleph.C147_duplicate | propext, Classical.choice, Quot.sound |
| Aleph.C148_values | propext, Classical.choice, Quot.sound |
| Aleph.C148_range_partial | propext, Classical.choice, Quot.sound |
| Aleph.C148_constant | propext, Classical.choice, Quot.sound |
| Aleph.C148_negative | propext, Classical.choice, Quot.sound |
| Aleph.C148_outside | propext, Classical.choice, Quot.sound |
| Aleph.C149_by_level | propext, Classical.choice, Quot.sound |
| Aleph.C149_covered | propext, Classical.choice, Quot.sound |
| Aleph.C149_to_level | propext, Classical.choice, Quot.sound |
| Aleph.C149_harmonic_partial | propext, Classical.choice, Quot.sound |
| Aleph.C149_path | propext, Quot.sound |
| Aleph.C149_endless | propext, Classical.choice, Quot.sound |
| Aleph.C149_lost | propext, Classical.choice, Quot.sound |
| Aleph.C149_raised | propext, Classical.choice, Quot.sound |
| Aleph.C15_components | propext, Classical.choice, Quot.sound |
| Aleph.C150_pairs | propext, Classical.choice, Quot.sound |
| Aleph.C150_matrix | propext, Classical.choice, Quot.sound |
| Aleph.C150_hausdorff | propext, Classical.choice, Quot.sound |
| Aleph.C150_wasserstein_partial | propext, Classical.choice, Quot.sound |
| Aleph.C150_bottleneck_partial | propext, Classical.choice, Quot.sound |
| Aleph.C150_rooted | propext, Classical.choice, Quot.sound |
| Aleph.C150_missing | propext, Classical.choice, Quot.sound |
| Aleph.C150_indicator_partial | propext, Classical.choice, Quot.sound |
| Aleph.C150_envelope_partial | propext, Classical.choice, Quot.sound |
| Aleph.C150_envelope_wrong | propext, Classical.choice, Quot.sound |
| Aleph.C150_functions | propext, Classical.choice, Quot.sound |
| Aleph.C150_kernel | propext, Classical.choice, Quot.sound |
| Aleph.C150_not_a_kernel | propext, Classical.choice, Quot.sound |
| Aleph.C150_scale_space | propext, Classical.choice, Quot.sound |
| Aleph.C150_options_partial | propext, Classical.choice, Quot.sound |
| Aleph.C150_options_wrong | propext, Classical.choice, Quot.sound |
| Aleph.C150_kernel_option | propext, Classical.choice, Quot.sound |
| Aleph.C150_switches | propext, Classical.choice, Quot.sound |
| Aleph.C150_first | propext, Classical.choice, Quot.sound |
| Aleph.C150_postprocess | propext, Classical.choice, Quot.sound |
| Aleph.C150_names | propext, Classical.choice, Quot.sound |
| Aleph.C150_groups | propext, Classical.choice, Quot.sound |
| Aleph.C150_read | propext, Classical.choice, Quot.sound |
| Aleph.C150_run | propext, Classical.choice, Quot.sound |
| Aleph.C150_text | propext, Classical.choice, Quot.sound |
| Aleph.C151_betti | propext, Classical.choice, Quot.sound |
| Aleph.C151_identifier | propext, Quot.sound |
| Aleph.C151_file_partial | propext, Classical.choice, Quot.sound |
| Aleph.C151_output | propext, Classical.choice, Quot.sound |
| Aleph.C151_failure | propext, Classical.choice, Quot.sound |
| Aleph.C151_zeroth_wrong | propext, Classical.choice, Quot.sound |
| Aleph.C152_names_partial | propext, Classical.choice, Quot.sound |
| Aleph.C152_names_wrong | propext, Classical.choice, Quot.sound |
| Aleph.C152_statistics | propext, Classical.choice, Quot.sound |
| Aleph.C152_invalid_partial | propext, Classical.choice, Quot.sound |
| Aleph.C152_diagonal_wrong | propext, Classical.choice, Quot.sound |
| Aleph.C152_options | propext, Classical.choice, Quot.sound |
| Aleph.C152_output | propext, Classical.choice, Quot.sound |
| Aleph.C152_failure | propext, Classical.choice, Quot.sound |
| Aleph.C152_commas_wrong | propext, Classical.choice, Quot.sound |
| Aleph.C153_signature | propext, Classical.choice, Quot.sound |
| Aleph.C153_order | propext, Classical.choice, Quot.sound |
| Aleph.C153_stability | propext, Classical.choice, Quot.sound |
| Aleph.C153_empty_wrong | propext, Quot.sound |
| Aleph.C153_filter | propext, Classical.choice, Quot.sound |
| Aleph.C153_normalize | propext, Classical.choice, Quot.sound |
| Aleph.C153_invariance | propext, Classical.choice, Quot.sound |
| Aleph.C153_options | propext, Quot.sound |
| Aleph.C153_output_partial | propext, Classical.choice, Quot.sound |
| Aleph.C153_failure | propext, Quot.sound |
| Aleph.C154_perversities | propext, Classical.choice, Quot.sound |
| Aleph.C154_overflow | propext, Classical.choice, Quot.sound |
| Aleph.C154_dimension_zero | propext, Quot.sound |
| Aleph.C154_homology | propext, Classical.choice, Quot.sound |
| Aleph.C154_intersection_partial | propext, Classical.choice, Quot.sound |
| Aleph.C154_graphs | propext, Classical.choice, Quot.sound |
| Aleph.C154_only_maximum | propext, Classical.choice, Quot.sound |
| Aleph.C154_wrong_strata | propext, Classical.choice, Quot.sound |
| Aleph.C154_main_partial | propext, Classical.choice, Quot.sound |
| Aleph.C154_main_points | propext, Classical.choice, Quot.sound |
| Aleph.C155_stability | propext, Classical.choice, Quot.sound |
| Aleph.C155_stability_superlevel | propext, Classical.choice, Quot.sound |
| Aleph.C155_bottleneck | propext, Classical.choice, Quot.sound |
| Aleph.C155_wasserstein | propext, Classical.choice, Quot.sound |
| Aleph.C156_main | propext, Classical.choice, Quot.sound |
| Aleph.C156_rejected | propext, Classical.choice, Quot.sound |
| Aleph.C156_missing_file | propext, Classical.choice, Quot.sound |
| Aleph.C156_options | propext, Quot.sound |
| Aleph.C156_stability | propext, Classical.choice, Quot.sound |
| Aleph.C157_minimum_spanning_tree | propext, Classical.choice, Quot.sound |
| Aleph.C157_exceptions | propext |
| Aleph.C157_packed_witness | propext, Quot.sound |
| Aleph.C158_edges_and_pairs_partial | propext, Classical.choice, Quot.sound |
| Aleph.C158_edges_witness | propext, Classical.choice, Quot.sound |
| Aleph.C158_pairs_witness | propext, Classical.choice, Quot.sound |
| Aleph.C159_rips_diagrams | propext, Classical.choice, Quot.sound |
| Aleph.C159_persistent_betti | propext, Classical.choice, Quot.sound |
| Aleph.C159_stability | propext, Classical.choice, Quot.sound |
| Aleph.C159_single_point_witness | propext, Classical.choice, Quot.sound |
| Aleph.C16_zero_dimensional_pairing | propext, Classical.choice, Quot.sound |
| Aleph.C16_agrees_with_reduction | propext, Classical.choice, Quot.sound |
| Aleph.C160_minimum_spanning_tree | propext, Classical.choice, Quot.sound |
| Aleph.C160_maximum_spanning_tree | propext, Classical.choice, Quot.sound |
| Aleph.C160_exceptions | propext |
| Aleph.C160_no_edges | propext, Classical.choice, Quot.sound |
| Aleph.C160_pairing | propext, Classical.choice, Quot.sound |
| Aleph.C161_point_cloud_partial | propext, Classical.choice, Quot.sound |
| Aleph.C161_default_epsilon | propext, Classical.choice, Quot.sound |
| Aleph.C161_layout_witness | propext, Classical.choice, Quot.sound |
| Aleph.C162_spanning_tree_partial | propext, Classical.choice, Quot.sound |
| Aleph.C162_first_row | propext, Classical.choice, Quot.sound |
| Aleph.C162_witness | propext, Classical.choice, Quot.sound |
| Aleph.C162_output_partial | propext, Classical.choice, Quot.sound |
| Aleph.C162_errors | propext, Classical.choice, Quot.sound |
| Aleph.C162_not_square | propext, Classical.choice, Quot.sound |
| Aleph.C163_output_partial | propext, Classical.choice, Quot.sound |
| Aleph.C163_failure | propext, Classical.choice, Quot.sound |
| Aleph.C164_output_partial | propext, Classical.choice, Quot.sound |
| Aleph.C164_files_partial | propext, Classical.choice, Quot.sound |
| Aleph.C164_factor_betti | propext, Classical.choice, Quot.sound |
| Aleph.C164_empty | propext, Classical.choice, Quot.sound |
| Aleph.C164_no_edges | propext, Classical.choice, Quot.sound |
| Aleph.C164_weights | propext, Classical.choice, Quot.sound |
| Aleph.C164_options | propext, Quot.sound |
| Aleph.C164_usage | propext, Classical.choice, Quot.sound |
| Aleph.C164_formats | propext, Classical.choice, Quot.sound |
| Aleph.C164_edge_list | propext, Classical.choice, Quot.sound |
| Aleph.C164_separator_witness | propext, Classical.choice, Quot.sound |
| Aleph.C164_node_weights_witness | propext, Classical.choice, Quot.sound |
| Aleph.C164_few_node_weights_witness | propext, Classical.choice, Quot.sound |
| Aleph.C165_output_partial | propext, Classical.choice, Quot.sound |
| Aleph.C165_options | propext |
| Aleph.C165_coincident | propext, Classical.choice, Quot.sound |
| Aleph.C165_input | propext, Classical.choice, Quot.sound |
| Aleph.C165_arguments | propext, Classical.choice, Quot.sound |
| Aleph.C165_normalize_witness | propext, Classical.choice, Quot.sound |
| Aleph.C166_output | propext, Classical.choice, Quot.sound |
| Aleph.C166_options | propext, Quot.sound |
| Aleph.C166_errors | propext, Classical.choice, Quot.sound |
| Aleph.C166_single_pixel | propext, Classical.choice, Quot.sound |
| Aleph.C167_output_partial | propext, Classical.choice, Quot.sound |
| Aleph.C167_options | propext, Quot.sound |
| Aleph.C167_arguments | propext, Classical.choice, Quot.sound |
| Aleph.C167_few_landmarks | propext, Classical.choice, Quot.sound |
| Aleph.C167_default | propext, Classical.choice, Quot.sound |
| Aleph.C167_input | propext, Classical.choice, Quot.sound |
| Aleph.C168_output | propext, Classical.choice, Quot.sound |
| Aleph.C168_errors | propext, Classical.choice, Quot.sound |
| Aleph.C169_output_partial | propext, Classical.choice, Quot.sound |
| Aleph.C169_superlevel | propext, Classical.choice, Quot.sound |
| Aleph.C169_errors | propext, Classical.choice, Quot.sound |
| Aleph.C17_components | propext, Classical.choice, Quot.sound |
| Aleph.C17_elder_rule | propext, Classical.choice, Quot.sound |
| Aleph.C17_counts | propext, Classical.choice, Quot.sound |
| Aleph.C17_points_above_diagonal | propext, Classical.choice, Quot.sound |
| Aleph.C17_persistent_components | propext, Classical.choice, Quot.sound |
| Aleph.C17_persistent_components_superlevel | propext, Classical.choice, Quot.sound |
| Aleph.C170_files_partial | propext, Classical.choice, Quot.sound |
| Aleph.C170_isolated | propext, Classical.choice, Quot.sound |
| Aleph.C170_empty_directory | propext, Classical.choice, Quot.sound |
| Aleph.C170_options | propext, Classical.choice, Quot.sound |
| Aleph.C170_failures | propext, Classical.choice, Quot.sound |
| Aleph.C170_edge_list | propext, Classical.choice, Quot.sound |
| Aleph.C171_output_partial | propext, Classical.choice, Quot.sound |
| Aleph.C171_two_points | propext, Classical.choice, Quot.sound |
| Aleph.C171_failures | propext, Classical.choice, Quot.sound |
| Aleph.C172_rectangular_partial | propext, Classical.choice, Quot.sound |
| Aleph.C172_same_maximum | propext, Classical.choice, Quot.sound |
| Aleph.C172_missing_pair | propext, Classical.choice, Quot.sound |
| Aleph.C173_unweighted | propext, Classical.choice, Quot.sound |
| Aleph.C173_weighted | propext, Classical.choice, Quot.sound |
| Aleph.C173_divergence | propext, Classical.choice, Quot.sound |
| Aleph.C173_exception | propext, Classical.choice, Quot.sound |
| Aleph.C174_output_partial | propext, Classical.choice, Quot.sound |
| Aleph.C174_throws | propext, Classical.choice, Quot.sound |
| Aleph.C175_random | propext, Classical.choice, Quot.sound |
| Aleph.C175_box | propext, Classical.choice, Quot.sound |
| Aleph.C175_sphere | propext, Classical.choice, Quot.sound |
| Aleph.C175_torus | propext, Classical.choice, Quot.sound |
| Aleph.C175_no_output | propext, Classical.choice, Quot.sound |
| Aleph.C175_distinct | propext, Classical.choice, Quot.sound |
| Aleph.C176_output_partial | propext, Classical.choice, Quot.sound |
| Aleph.C176_single_point | propext, Classical.choice, Quot.sound |
| Aleph.C176_failures | propext, Classical.choice, Quot.sound |
| Aleph.C177_files_partial | propext, Classical.choice, Quot.sound |
| Aleph.C177_contents | propext, Classical.choice, Quot.sound |
| Aleph.C177_round_trip | propext, Quot.sound |
| Aleph.C177_failures | propext, Classical.choice, Quot.sound |
| Aleph.C177_mean_witness | propext, Classical.choice, Quot.sound |
| Aleph.C177_overwritten_witness | propext, Classical.choice, Quot.sound |
| Aleph.C178_output_partial | propext, Classical.choice, Quot.sound |
| Aleph.C178_unsupported | propext, Classical.choice, Quot.sound |
| Aleph.C178_failures | propext, Classical.choice, Quot.sound |
| Aleph.C179_files_partial | propext, Classical.choice, Quot.sound |
| Aleph.C179_closeness | propext, Classical.choice, Quot.sound |
| Aleph.C179_graphs | propext, Classical.choice, Quot.sound |
| Aleph.C179_edgeless | propext, Classical.choice, Quot.sound |
| Aleph.C179_loops | propext, Classical.choice, Quot.sound |
| Aleph.C179_dimension | propext, Classical.choice, Quot.sound |
| Aleph.C179_superlevel | propext, Classical.choice, Quot.sound |
| Aleph.C179_failures | propext, Classical.choice, Quot.sound |
| Aleph.C18_normal_form | propext, Classical.choice, Quot.sound |
| Aleph.C18_equality | propext, Classical.choice, Quot.sound |
| Aleph.C18_dimension | propext, Classical.choice, Quot.sound |
| Aleph.C18_contains | propext, Classical.choice, Quot.sound |
| Aleph.C180_text_partial | propext, Classical.choice, Quot.sound |
| Aleph.C180_pictures | propext, Classical.choice, Quot.sound |
| Aleph.C180_failures | propext, Classical.choice, Quot.sound |
| Aleph.C181_band_partial | propext, Classical.choice, Quot.sound |
| Aleph.C181_failures | propext, Classical.choice, Quot.sound |
| Aleph.C181_level | propext, Classical.choice, Quot.sound |
| Aleph.C181_domain_witness | propext, Classical.choice, Quot.sound |
| Aleph.C182_distance_partial | propext, Classical.choice, Quot.sound |
| Aleph.C182_ascending_partial | propext, Classical.choice, Quot.sound |
| Aleph.C182_failures | propext, Classical.choice, Quot.sound |
| Aleph.C182_descending_witness | propext, Classical.choice, Quot.sound |
| Aleph.C182_negative_witness | propext, Classical.choice, Quot.sound |
| Aleph.C182_distance_witness | propext, Classical.choice, Quot.sound |
| Aleph.C183_band_partial | propext, Classical.choice, Quot.sound |
| Aleph.C183_common_interval | propext, Classical.choice, Quot.sound |
| Aleph.C183_indicator | propext, Classical.choice, Quot.sound |
| Aleph.C183_failures | propext, Classical.choice, Quot.sound |
| Aleph.C183_gap_witness | propext, Classical.choice, Quot.sound |
| Aleph.C184_output_partial | propext, Classical.choice, Quot.sound |
| Aleph.C184_unsupported | propext, Classical.choice, Quot.sound |
| Aleph.C184_failures | propext, Classical.choice, Quot.sound |
| Aleph.C185_output_partial | propext, Classical.choice, Quot.sound |
| Aleph.C185_isolated | propext, Classical.choice, Quot.sound |
| Aleph.C185_failures | propext, Classical.choice, Quot.sound |
| Aleph.C186_output_partial | propext, Classical.choice, Quot.sound |
| Aleph.C186_sphere | propext, Classical.choice, Quot.sound |
| Aleph.C186_equidistant | propext, Classical.choice, Quot.sound |
| Aleph.C186_circle | propext, Classical.choice, Quot.sound |
| Aleph.C186_failures | propext, Classical.choice, Quot.sound |
| Aleph.C187_diagram_partial | propext, Classical.choice, Quot.sound |
| Aleph.C187_transformation_partial | propext, Classical.choice, Quot.sound |
| Aleph.C187_identity_partial | propext, Classical.choice, Quot.sound |
| Aleph.C187_failures | propext, Classical.choice, Quot.sound |
| Aleph.C188_output_partial | propext, Classical.choice, Quot.sound |
| Aleph.C188_sphere_partial | propext, Classical.choice, Quot.sound |
| Aleph.C188_contrast_partial | propext, Classical.choice, Quot.sound |
| Aleph.C188_failures | propext, Classical.choice, Quot.sound |
| Aleph.C189_graph_partial | propext, Classical.choice, Quot.sound |
| Aleph.C189_lower | propext, Classical.choice, Quot.sound |
| Aleph.C189_upper_partial | propext, Classical.choice, Quot.sound |
| Aleph.C189_unsorted | propext |
| Aleph.C19_boundary | propext, Classical.choice, Quot.sound |
| Aleph.C19_codim_two | propext, Classical.choice, Quot.sound |
| Aleph.C190_global | propext, Classical.choice, Quot.sound |
| Aleph.C190_local | propext, Classical.choice, Quot.sound |
| Aleph.C190_standard_partial | propext, Classical.choice, Quot.sound |
| Aleph.C190_unknown | propext, Classical.choice, Quot.sound |
| Aleph.C190_opposite | propext, Quot.sound |
| Aleph.C190_absolute | propext, Classical.choice, Quot.sound |
| Aleph.C191_normalize | propext, Classical.choice, Quot.sound |
| Aleph.C191_failures | propext, Classical.choice, Quot.sound |
| Aleph.C192_diagram_partial | propext, Classical.choice, Quot.sound |
| Aleph.C192_beyond | propext, Classical.choice, Quot.sound |
| Aleph.C192_diagonal | propext, Classical.choice, Quot.sound |
| Aleph.C193_standardize | propext, Classical.choice, Quot.sound |
| Aleph.C193_strata | propext, Classical.choice, Quot.sound |
| Aleph.C193_diagrams_partial | propext, Classical.choice, Quot.sound |
| Aleph.C193_inverted | propext, Classical.choice, Quot.sound |
| Aleph.C193_not_closed | propext, Classical.choice, Quot.sound |
| Aleph.C193_regular | propext, Classical.choice, Quot.sound |
| Aleph.C193_missing | propext |
| Aleph.C194_classes | propext, Classical.choice, Quot.sound |
| Aleph.C20_strict_total_order | propext, Quot.sound |
| Aleph.C20_faces_less | propext, Classical.choice, Quot.sound |
| Aleph.C21_data_strict_total | propext, Classical.choice, Quot.sound |
| Aleph.C21_sort_unique | propext, Classical.choice, Quot.sound |
| Aleph.C21_data_faces_first | propext, Classical.choice, Quot.sound |
| Aleph.C21_data_less | propext, Classical.choice, Quot.sound |
| Aleph.C21_lower_star | propext, Classical.choice, Quot.sound |
| Aleph.C21_upper_star | propext, Classical.choice, Quot.sound |
| Aleph.C21_star_values | propext, Classical.choice, Quot.sound |
| Aleph.C22_history | propext, Classical.choice, Quot.sound |
| Aleph.C22_history_distinct | propext, Classical.choice, Quot.sound |
| Aleph.C22_calls_complete | propext, Classical.choice, Quot.sound |
| Aleph.C22_lookups | propext, Classical.choice, Quot.sound |
| Aleph.C22_push_back | propext |
| Aleph.C22_replace | propext, Classical.choice, Quot.sound |
| Aleph.C22_dimension | propext, Classical.choice, Quot.sound |
| Aleph.C22_vertices | propext, Classical.choice, Quot.sound |
| Aleph.C23_remove_terminates | propext, Classical.choice, Quot.sound |
| Aleph.C23_remove | propext, Classical.choice, Quot.sound |
| Aleph.C23_remove_general | propext, Classical.choice, Quot.sound |
| Aleph.C24_createMissingFaces | propext, Classical.choice, Quot.sound |
| Aleph.C24_closed_unchanged | propext, Classical.choice, Quot.sound |
| Aleph.C24_shared_face_data | propext, Classical.choice, Quot.sound |
| Aleph.C25_recalculateWeights_general | propext, Classical.choice, Quot.sound |
| Aleph.C25_recalculateWeights_max | propext, Classical.choice, Quot.sound |
| Aleph.C25_recalculateWeights_min | propext, Classical.choice, Quot.sound |
| Aleph.C25_vertex_weights | propext, Classical.choice, Quot.sound |
| Aleph.C26_cliques | propext, Classical.choice, Quot.sound |
| Aleph.C26_faceClosed | propext, Classical.choice, Quot.sound |
| Aleph.C26_order_witness | propext, Classical.choice, Quot.sound |
| Aleph.C27_maximum_weight | propext, Classical.choice, Quot.sound |
| Aleph.C27_expansion_weights | propext, Classical.choice, Quot.sound |
| Aleph.C27_maximum_data | propext, Classical.choice, Quot.sound |
| Aleph.C27_negative_witness | propext |
| Aleph.C27_out_of_bounds_witness | propext |
| Aleph.C28_vietoris_rips | propext, Classical.choice, Quot.sound |
| Aleph.C28_vietoris_rips_values | propext, Classical.choice, Quot.sound |
| Aleph.C29_bron_kerbosch | propext, Classical.choice, Quot.sound |
| Aleph.C29_missing_vertex_witness | propext |
| Aleph.C30_koch | propext, Classical.choice, Quot.sound |
| Aleph.C30_agree | propext, Classical.choice, Quot.sound |
| Aleph.C30_cover | propext, Classical.choice, Quot.sound |
| Aleph.C31_floyd_warshall | propext, Classical.choice, Quot.sound |
| Aleph.C31_missing_vertex_witness | propext, Quot.sound |
| Aleph.C32_cone | propext, Classical.choice, Quot.sound |
| Aleph.C32_suspension | propext, Classical.choice, Quot.sound |
| Aleph.C32_default_data | propext, Classical.choice, Quot.sound |
| Aleph.C32_empty | none |
| Aleph.C33_spine | propext, Classical.choice, Quot.sound |
| Aleph.C33_dumb_spine | propext, Classical.choice, Quot.sound |
| Aleph.C33_homology | propext, Classical.choice, Quot.sound |
| Aleph.C33_admissible | propext, Classical.choice, Quot.sound |
| Aleph.C34_euler_partial | propext, Classical.choice, Quot.sound |
| Aleph.C34_euler_wrong | propext, Classical.choice, Quot.sound |
| Aleph.C34_diagrams_partial | propext, Classical.choice, Quot.sound |
| Aleph.C35_optimal_assignment | propext, Classical.choice, Quot.sound |
| Aleph.C35_matching_cost | propext, Classical.choice, Quot.sound |
| Aleph.C36_optimal_matching | propext, Classical.choice, Quot.sound |
| Aleph.C36_dimensions | propext, Quot.sound |
| Aleph.C36_projection | propext, Classical.choice, Quot.sound |
| Aleph.C36_symmetric | propext, Classical.choice, Quot.sound |
| Aleph.C36_zero | propext, Classical.choice, Quot.sound |
| Aleph.C36_equal_diagrams | propext, Classical.choice, Quot.sound |
| Aleph.C36_order_independent | propext, Classical.choice, Quot.sound |
| Aleph.C37_infinity_distance | propext, Quot.sound |
| Aleph.C37_hausdorff | propext, Quot.sound |
| Aleph.C37_empty | propext |
| Aleph.C37_metric | propext, Classical.choice, Quot.sound |
| Aleph.C38_empty_second_partial | propext, Classical.choice, Quot.sound |
| Aleph.C38_single_points_partial | propext, Classical.choice, Quot.sound |
| Aleph.C38_undefined | propext, Classical.choice, Quot.sound |
| Aleph.C38_wrong | propext, Classical.choice, Quot.sound |
| Aleph.C39_removeDiagonal | propext, Quot.sound |
| Aleph.C39_removeUnpaired | propext, Classical.choice, Quot.sound |
| Aleph.C39_removeDuplicates | propext, Classical.choice, Quot.sound |
| Aleph.C39_merge | propext, Quot.sound |
| Aleph.C39_add | propext |
| Aleph.C39_betti | propext |
| Aleph.C39_equality | propext |
| Aleph.C39_equality_witness | none |
| Aleph.C39_insert_erase | propext, Quot.sound |
| Aleph.C40_active_intervals_partial | propext, Classical.choice, Quot.sound |
| Aleph.C40_inverted_partial | propext, Classical.choice, Quot.sound |
| Aleph.C40_diagonal_witness | propext |
| Aleph.C40_successor_witness | propext |
| Aleph.C40_both_sides_witness | propext |
| Aleph.C41_symmetric_matrix | propext, Classical.choice, Quot.sound |
| Aleph.C41_range | propext, Classical.choice, Quot.sound |
| Aleph.C41_ushort_witness | propext |
| Aleph.C42_construction | propext, Classical.choice, Quot.sound |
| Aleph.C42_evaluation | propext, Classical.choice, Quot.sound |
| Aleph.C42_sum | propext, Classical.choice, Quot.sound |
| Aleph.C42_scalars | propext, Classical.choice, Quot.sound |
| Aleph.C42_abs | propext, Classical.choice, Quot.sound |
| Aleph.C42_distance | propext, Classical.choice, Quot.sound |
| Aleph.C42_equality | propext, Classical.choice, Quot.sound |
| Aleph.C42_maximum | propext, Classical.choice, Quot.sound |
| Aleph.C42_integral | propext, Classical.choice, Quot.sound |
| Aleph.C42_constructed_integral | propext, Classical.choice, Quot.sound |
| Aleph.C42_lp_distance | propext, Classical.choice, Quot.sound |
| Aleph.C42_sum_witness | propext, Classical.choice, Quot.sound |
| Aleph.C42_equality_witness | propext, Classical.choice, Quot.sound |
| Aleph.C42_sign_witness | propext, Classical.choice, Quot.sound |
| Aleph.C43_cover_tree | propext, Classical.choice, Quot.sound |
| Aleph.C43_is_valid | propext, Classical.choice, Quot.sound |
| Aleph.C43_radius | propext, Classical.choice, Quot.sound |
| Aleph.C44_sink_source | propext, Classical.choice, Quot.sound |
| Aleph.C44_order_independent | propext, Classical.choice, Quot.sound |
| Aleph.C44_admissible_pairs | propext, Quot.sound |
| Aleph.C44_source | propext, Classical.choice, Quot.sound |
| Aleph.C45_witness_complex | propext, Classical.choice, Quot.sound |
| Aleph.C45_empty | propext |
| Aleph.C45_nu_out_of_range | propext, Classical.choice, Quot.sound |
| Aleph.C45_random_landmarks | propext, Classical.choice, Quot.sound |
| Aleph.C45_max_min_landmarks | propext, Classical.choice, Quot.sound |
| Aleph.C45_max_min_nodup | propext, Classical.choice, Quot.sound |
| Aleph.C45_max_min_range | propext, Quot.sound |
| Aleph.C46_filter | propext, Quot.sound |
| Aleph.C46_skeleton | propext, Classical.choice, Quot.sound |
| Aleph.C47_partition | propext, Quot.sound |
| Aleph.C47_perversity | propext, Classical.choice, Quot.sound |
| Aleph.C47_perversity_gm | propext, Classical.choice, Quot.sound |
| Aleph.C47_perversity_gm_not_normalised | propext |
| Aleph.C47_last_intersection | propext, Classical.choice, Quot.sound |
| Aleph.C47_intersection_homology | propext, Classical.choice, Quot.sound |
| Aleph.C47_betti | propext, Classical.choice, Quot.sound |
| Aleph.C47_any_order | propext, Classical.choice, Quot.sound |
| Aleph.C47_betti_any_order | propext, Classical.choice, Quot.sound |
| Aleph.C47_unsorted_wrong | propext |
| Aleph.C47_inconsistent | propext, Classical.choice, Quot.sound |
| Aleph.C48_subdivision | propext, Classical.choice, Quot.sound |
| Aleph.C48_missing_face | propext, Classical.choice, Quot.sound |
| Aleph.C49_history | propext, Quot.sound |
| Aleph.C49_accumulate | propext, Quot.sound |
| Aleph.C49_accumulate_sorted | propext, Classical.choice, Quot.sound |
| Aleph.C50_add | propext, Quot.sound |
| Aleph.C50_evaluation | propext, Classical.choice, Quot.sound |
| Aleph.C50_common_end_point | propext, Classical.choice, Quot.sound |
| Aleph.C50_negative_witness | propext |
| Aleph.C50_scalars | propext, Classical.choice, Quot.sound |
| Aleph.C50_integral | propext, Quot.sound |
| Aleph.C50_maximum | propext, Quot.sound |
| Aleph.C50_sum_wrong | propext |
| Aleph.C50_sum_partial | propext, Classical.choice, Quot.sound |
| Aleph.C50_sum_dip_witness | propext |
| Aleph.C51_pipeline | propext, Classical.choice, Quot.sound |
| Aleph.C51_betti | propext, Classical.choice, Quot.sound |
| Aleph.C51_persistent_betti | propext, Classical.choice, Quot.sound |
| Aleph.C51_persistent_betti_superlevel | propext, Classical.choice, Quot.sound |
| Aleph.C52_tie_breaking | propext, Classical.choice, Quot.sound |
| Aleph.C53_sparse_matrix | propext, Quot.sound |
| Aleph.C53_indices | propext |
| Aleph.C54_combinations | propext, Classical.choice, Quot.sound |
| Aleph.C55_top_down | propext, Classical.choice, Quot.sound |
| Aleph.C55_agrees_with_bottom_up | propext, Classical.choice, Quot.sound |
| Aleph.C55_weights | propext, Classical.choice, Quot.sound |
| Aleph.C56_clique_graph | propext, Classical.choice, Quot.sound |
| Aleph.C56_maximum | propext, Classical.choice, Quot.sound |
| Aleph.C57_euler_poincare | propext, Classical.choice, Quot.sound |
| Aleph.C58_nearest_neighbours | propext, Classical.choice, Quot.sound |
| Aleph.C58_zero | propext, Classical.choice, Quot.sound |
| Aleph.C58_empty_witness | propext, Classical.choice, Quot.sound |
| Aleph.C59_for_each_combination | propext, Classical.choice, Quot.sound |
| Aleph.C59_combinations | propext, Classical.choice, Quot.sound |
| Aleph.C60_values | propext, Classical.choice, Quot.sound |
| Aleph.C60_metric | propext, Classical.choice, Quot.sound |
| Aleph.C60_euclidean | propext, Classical.choice, Quot.sound |
| Aleph.C60_out_of_range | propext, Classical.choice, Quot.sound |
| Aleph.C61_k_nearest | propext, Classical.choice, Quot.sound |
| Aleph.C61_self | propext, Classical.choice, Quot.sound |
| Aleph.C61_too_many | propext, Quot.sound |
| Aleph.C61_radius | propext, Classical.choice, Quot.sound |
| Aleph.C62_cech | propext, Classical.choice, Quot.sound |
| Aleph.C62_cech_real | propext, Classical.choice, Quot.sound |
| Aleph.C63_skeleton | propext, Classical.choice, Quot.sound |
| Aleph.C63_lune | propext, Classical.choice, Quot.sound |
| Aleph.C63_gabriel | propext, Classical.choice, Quot.sound |
| Aleph.C63_antitone | propext, Classical.choice, Quot.sound |
| Aleph.C64_path | propext, Classical.choice, Quot.sound |
| Aleph.C64_lines | propext, Classical.choice, Quot.sound |
| Aleph.C64_matrix | propext, Classical.choice, Quot.sound |
| Aleph.C64_stale_dimensions | propext |
| Aleph.C65_pairing_partial | propext, Classical.choice, Quot.sound |
| Aleph.C65_throws | propext, Classical.choice, Quot.sound |
| Aleph.C65_single_value | propext, Classical.choice, Quot.sound |
| Aleph.C66_total_persistence | propext, Classical.choice, Quot.sound |
| Aleph.C66_infinity_norm | propext, Classical.choice, Quot.sound |
| Aleph.C66_p_norm | propext, Classical.choice, Quot.sound |
| Aleph.C66_limit | propext, Classical.choice, Quot.sound |
| Aleph.C67_weighted_persistence | propext, Classical.choice, Quot.sound |
| Aleph.C67_persistence | propext, Classical.choice, Quot.sound |
| Aleph.C68_linear_kernel_partial | propext, Classical.choice, Quot.sound |
| Aleph.C68_pseudo_metric_wrong | propext, Classical.choice, Quot.sound |
| Aleph.C68_default_weight | propext, Classical.choice, Quot.sound |
| Aleph.C69_kernel | propext, Classical.choice, Quot.sound |
| Aleph.C69_metric | propext, Classical.choice, Quot.sound |
| Aleph.C69_sigma | propext, Classical.choice, Quot.sound |
| Aleph.C69_feature_map | propext, Classical.choice, Quot.sound |
| Aleph.C70_trim | propext, Classical.choice, Quot.sound |
| Aleph.C70_split | propext, Quot.sound |
| Aleph.C70_whitespace | propext, Quot.sound |
| Aleph.C71_new | propext, Quot.sound |
| Aleph.C71_get | propext, Quot.sound |
| Aleph.C71_set | propext, Classical.choice, Quot.sound |
| Aleph.C71_concatenation | propext, Classical.choice, Quot.sound |
| Aleph.C71_equality | propext, Quot.sound |
| Aleph.C72_load_partial | propext, Classical.choice, Quot.sound |
| Aleph.C72_unterminated | propext, Classical.choice, Quot.sound |
| Aleph.C72_round_trip | propext, Classical.choice, Quot.sound |
| Aleph.C73_grid | propext, Classical.choice, Quot.sound |
| Aleph.C73_maximum | propext, Classical.choice, Quot.sound |
| Aleph.C73_empty | propext |
| Aleph.C73_count | propext, Classical.choice, Quot.sound |
| Aleph.C73_euler | propext, Classical.choice, Quot.sound |
| Aleph.C74_read_partial | propext, Classical.choice, Quot.sound |
| Aleph.C74_empty_line | propext, Classical.choice, Quot.sound |
| Aleph.C74_comment | propext, Classical.choice, Quot.sound |
| Aleph.C75_graph_partial | propext, Classical.choice, Quot.sound |
| Aleph.C75_default | propext, Classical.choice, Quot.sound |
| Aleph.C75_maximum_wrong | propext, Classical.choice, Quot.sound |
| Aleph.C76_read_partial | propext, Classical.choice, Quot.sound |
| Aleph.C76_comment | propext, Classical.choice, Quot.sound |
| Aleph.C76_not_square | propext, Classical.choice, Quot.sound |
| Aleph.C77_read_partial | propext, Classical.choice, Quot.sound |
| Aleph.C77_numbering | propext, Classical.choice, Quot.sound |
| Aleph.C77_numeric | propext, Classical.choice, Quot.sound |
| Aleph.C77_labels | propext, Classical.choice, Quot.sound |
| Aleph.C77_reuse_wrong | propext, Classical.choice, Quot.sound |
| Aleph.C78_entropy_partial | propext, Classical.choice, Quot.sound |
| Aleph.C78_bounds | propext, Classical.choice, Quot.sound |
| Aleph.C78_invariant | propext, Classical.choice, Quot.sound |
| Aleph.C78_diagonal_wrong | propext, Classical.choice, Quot.sound |
| Aleph.C79_nearest_neighbours | propext, Classical.choice, Quot.sound |
| Aleph.C79_bounds | propext, Classical.choice, Quot.sound |
| Aleph.C79_grid | propext, Classical.choice, Quot.sound |
| Aleph.C79_grid_degenerate | propext, Classical.choice, Quot.sound |
| Aleph.C80_curvature_partial | propext, Classical.choice, Quot.sound |
| Aleph.C80_vertices | propext, Classical.choice, Quot.sound |
| Aleph.C80_correct_iff | propext, Classical.choice, Quot.sound |
| Aleph.C80_graph | propext, Classical.choice, Quot.sound |
| Aleph.C81_weighted_partial | propext, Classical.choice, Quot.sound |
| Aleph.C81_top | propext, Classical.choice, Quot.sound |
| Aleph.C81_unit | propext, Classical.choice, Quot.sound |
| Aleph.C81_wrong | propext, Classical.choice, Quot.sound |
| Aleph.C82_degrees_partial | propext, Classical.choice, Quot.sound |
| Aleph.C82_degrees_iff | propext, Classical.choice, Quot.sound |
| Aleph.C82_handshake | propext, Classical.choice, Quot.sound |
| Aleph.C83_n_degree | propext, Classical.choice, Quot.sound |
| Aleph.C83_defects | propext, Classical.choice, Quot.sound |
| Aleph.C83_total | propext, Classical.choice, Quot.sound |
| Aleph.C83_gauss_bonnet | propext, Classical.choice, Quot.sound |
| Aleph.C84_envelope_partial | propext, Classical.choice, Quot.sound |
| Aleph.C84_above | propext, Classical.choice, Quot.sound |
| Aleph.C84_overrun | propext, Classical.choice, Quot.sound |
| Aleph.C84_arbitrary | propext, Classical.choice, Quot.sound |
| Aleph.C85_mean | propext, Classical.choice, Quot.sound |
| Aleph.C85_mean_affine | propext, Classical.choice, Quot.sound |
| Aleph.C85_variance | propext, Classical.choice, Quot.sound |
| Aleph.C85_variance_affine | propext, Classical.choice, Quot.sound |
| Aleph.C85_covariance | propext, Classical.choice, Quot.sound |
| Aleph.C85_shape | propext, Classical.choice, Quot.sound |
| Aleph.C85_shape_affine | propext, Classical.choice, Quot.sound |
| Aleph.C85_pearson | propext, Classical.choice, Quot.sound |
| Aleph.C86_median | propext, Classical.choice, Quot.sound |
| Aleph.C86_half | propext, Classical.choice, Quot.sound |
| Aleph.C86_optimal | propext, Classical.choice, Quot.sound |
| Aleph.C87_replicates | propext, Quot.sound |
| Aleph.C87_all_samples | propext, Classical.choice, Quot.sound |
| Aleph.C87_standard_error | propext, Classical.choice, Quot.sound |
| Aleph.C87_percentile_partial | propext, Classical.choice, Quot.sound |
| Aleph.C87_percentile_none | propext, Classical.choice, Quot.sound |
| Aleph.C87_basic | propext, Classical.choice, Quot.sound |
| Aleph.C87_student_wrong | propext, Classical.choice, Quot.sound |
| Aleph.C88_erdos_renyi | propext, Classical.choice, Quot.sound |
| Aleph.C88_all_graphs | propext, Classical.choice, Quot.sound |
| Aleph.C88_weighted | propext, Classical.choice, Quot.sound |
| Aleph.C88_all_weights | propext, Classical.choice, Quot.sound |
| Aleph.C88_divergence | propext, Classical.choice, Quot.sound |
| Aleph.C89_eccentricities | propext, Classical.choice, Quot.sound |
| Aleph.C89_equivariance | propext, Classical.choice, Quot.sound |
| Aleph.C89_orders | propext, Classical.choice, Quot.sound |
| Aleph.C90_gaussian_partial | propext, Classical.choice, Quot.sound |
| Aleph.C90_iff | propext, Classical.choice, Quot.sound |
| Aleph.C90_monotone | propext, Classical.choice, Quot.sound |
| Aleph.C90_zero | propext, Classical.choice, Quot.sound |
| Aleph.C91_density | propext, Classical.choice, Quot.sound |
| Aleph.C91_monotone | propext, Classical.choice, Quot.sound |
| Aleph.C92_lens_depth | propext, Classical.choice, Quot.sound |
| Aleph.C92_order_only | propext, Classical.choice, Quot.sound |
| Aleph.C93_smoothing | propext, Classical.choice, Quot.sound |
| Aleph.C93_range | propext, Classical.choice, Quot.sound |
| Aleph.C93_affine | propext, Classical.choice, Quot.sound |
| Aleph.C93_too_many | propext, Classical.choice, Quot.sound |
| Aleph.C94_integral | propext, Classical.choice, Quot.sound |
| Aleph.C94_fractions | propext, Classical.choice, Quot.sound |
| Aleph.C95_dimension | propext, Classical.choice, Quot.sound |
| Aleph.C95_power_law | propext, Classical.choice, Quot.sound |
| Aleph.C95_scaling | propext, Classical.choice, Quot.sound |
| Aleph.C95_scaled_points | propext, Classical.choice, Quot.sound |
| Aleph.C96_adjacency | propext, Classical.choice, Quot.sound |
| Aleph.C96_laplacian | propext, Classical.choice, Quot.sound |
| Aleph.C96_semidefinite | propext, Classical.choice, Quot.sound |
| Aleph.C97_kernel | propext, Classical.choice, Quot.sound |
| Aleph.C97_trace | propext, Classical.choice, Quot.sound |
| Aleph.C97_diffusion | propext, Classical.choice, Quot.sound |
| Aleph.C97_all_partial | propext, Classical.choice, Quot.sound |
| Aleph.C98_pseudoinverse_partial | propext, Classical.choice, Quot.sound |
| Aleph.C99_bisection | propext, Classical.choice, Quot.sound |
| Aleph.C99_parts | propext, Classical.choice, Quot.sound |
