X7.C01_add_assoc: propext, Quot.sound
X7.C01_add_comm: propext, Quot.sound
X7.C01_add_error: propext, Quot.sound
X7.C01_add_kinds: propext, Quot.sound
X7.C01_add_sub_cancel: propext, Quot.sound
X7.C01_chasles: propext, Quot.sound
X7.C01_mid: propext, Classical.choice, Quot.sound
X7.C01_point_cancel: propext, Quot.sound
X7.C01_point_plus_point: propext, Quot.sound
X7.C01_sub_eq_add_neg: propext, Quot.sound
X7.C01_sub_kinds: propext, Quot.sound
X7.C01_sub_numbers: propext, Quot.sound
X7.C01_truediv: propext, Classical.choice, Quot.sound
X7.C01_values: propext, Quot.sound
X7.C01_vec_cancel: propext, Quot.sound
X7.C01_vector_space: propext, Quot.sound
X7.C02_cross_bilinear: propext, Quot.sound
X7.C02_cross_eq_zero_iff: propext, Classical.choice, Quot.sound
X7.C02_dot_bilinear: propext, Quot.sound
X7.C02_lagrange: propext, Quot.sound
X7.C02_length: propext, Classical.choice, Quot.sound
X7.C02_normal: propext, Quot.sound
X7.C02_normal_dot: propext, Quot.sound
X7.C02_unit: propext, Classical.choice, Quot.sound
X7.C03_angle_rotate: propext, Classical.choice, Quot.sound
X7.C03_polar: propext, Classical.choice, Quot.sound
X7.C03_rotate_360: propext, Classical.choice, Quot.sound
X7.C03_rotate_add: propext, Classical.choice, Quot.sound
X7.C03_rotate_isometry: propext, Classical.choice, Quot.sound
X7.C03_rotate_sense: propext, Classical.choice, Quot.sound
X7.PH.C04_calc_over_calc_counterexample: propext, Classical.choice, Quot.sound
X7.PH.C04_fromxy: propext, Quot.sound
X7.PH.C04_move: propext, Classical.choice, Quot.sound
X7.PH.C04_readable: propext, Classical.choice, Quot.sound
X7.PH.C04_reads: propext, Classical.choice, Quot.sound
X7.PH.C04_vector_relative: propext, Classical.choice, Quot.sound
X7.PH.C05_copy: propext, Quot.sound
X7.PH.C05_copy_named_counterexample: propext, Classical.choice, Quot.sound
X7.PH.C05_copy_relative: propext, Classical.choice, Quot.sound
X7.PH.C05_fixed: propext, Quot.sound
X7.Parse.C06_append: propext, Quot.sound
X7.Parse.C06_idempotent: propext, Quot.sound
X7.Parse.C06_otherwise_value_error: propext, Quot.sound
X7.Parse.C06_parse_iff: propext, Quot.sound
X7.Parse.C06_same_values: propext, Quot.sound
X7.C07_affine: propext, Classical.choice, Quot.sound
X7.C07_ccw_positive: propext, Classical.choice, Quot.sound
X7.C07_diagonal: propext, Classical.choice, Quot.sound
X7.C07_rectangle: propext, Classical.choice, Quot.sound
X7.C07_reverse: propext, Classical.choice, Quot.sound
X7.C07_rotate: propext, Classical.choice, Quot.sound
X7.C07_small: propext, Classical.choice, Quot.sound
X7.C07_translate: propext, Classical.choice, Quot.sound
X7.C07_triangle: propext, Classical.choice, Quot.sound
X7.BBox.C08_expand_norm: propext, Classical.choice, Quot.sound
X7.BBox.C08_getitem: propext, Classical.choice, Quot.sound
X7.BBox.C08_init_corners: propext, Quot.sound
X7.BBox.C08_init_forms: propext
X7.BBox.C08_init_norm: propext
X7.BBox.C08_reach_norm: propext
X7.BBox.C08_reach_norm_expand: propext, Classical.choice, Quot.sound
X7.BBox.C08_setitem: propext, Quot.sound
X7.BBox.C08_sort_repairs: propext
X7.BBox.C09_add_assoc: propext, Classical.choice, Quot.sound
X7.BBox.C09_add_comm: propext, Classical.choice, Quot.sound
X7.BBox.C09_add_idem: propext, Classical.choice, Quot.sound
X7.BBox.C09_add_lub: propext, Classical.choice, Quot.sound
X7.BBox.C09_add_none: propext
X7.BBox.C09_sum_lub: propext, Quot.sound
X7.BBox.C09_sum_order: propext, Classical.choice, Quot.sound
X7.Disp.C100_builder: propext, Classical.choice, Quot.sound
X7.Disp.C100_detail: propext, Classical.choice, Quot.sound
X7.Disp.C100_group_lines: propext, Classical.choice, Quot.sound
X7.Disp.C100_headings: propext, Classical.choice, Quot.sound
X7.Disp.C100_hidden: propext, Classical.choice, Quot.sound
X7.Disp.C100_holes_counterexample: propext, Classical.choice, Quot.sound
X7.Disp.C100_holes_lines: propext, Classical.choice, Quot.sound
X7.Disp.C100_lines: propext, Classical.choice, Quot.sound
X7.Disp.C100_order: propext, Classical.choice, Quot.sound
X7.Disp.C100_outline: propext, Classical.choice, Quot.sound
X7.Disp.C100_prefix: propext, Classical.choice, Quot.sound
X7.Dump.C101_basic_counterexample: propext, Classical.choice, Quot.sound
X7.Dump.C101_box: propext, Classical.choice, Quot.sound
X7.Dump.C101_control_point: propext, Classical.choice, Quot.sound
X7.Dump.C101_elem: propext, Classical.choice, Quot.sound
X7.Dump.C101_group: propext, Classical.choice, Quot.sound
X7.Dump.C101_group_filled_counterexample: propext, Classical.choice, Quot.sound
X7.Dump.C101_line: propext, Classical.choice, Quot.sound
X7.Dump.C101_matrix_counterexample: propext, Classical.choice, Quot.sound
X7.Dump.C101_name_counterexample: propext, Classical.choice, Quot.sound
X7.Dump.C101_pens: propext, Classical.choice, Quot.sound
X7.Dump.C101_pens_by_shape: propext, Classical.choice, Quot.sound
X7.Dump.C101_point: propext, Classical.choice, Quot.sound
X7.Dump.C101_same_text: propext, Classical.choice, Quot.sound
X7.Dump.C101_str_counterexample: propext, Classical.choice, Quot.sound
X7.Dump.C101_str_curve: propext, Classical.choice, Quot.sound
X7.Dump.C101_str_group: propext, Classical.choice, Quot.sound
X7.Dump.C101_str_line: propext, Classical.choice, Quot.sound
X7.Dump.C101_str_pen_counterexample: propext, Classical.choice, Quot.sound
X7.Dump.C101_str_transform: propext, Classical.choice, Quot.sound
X7.Dump.C101_transform: propext, Classical.choice, Quot.sound
X7.Dump.C101_vector: propext, Classical.choice, Quot.sound
X7.IterChange.C102_bound: propext, Classical.choice, Quot.sound
X7.IterChange.C102_deep_inner: propext
X7.IterChange.C102_deep_outer: propext, Quot.sound
X7.IterChange.C102_exchanged: propext, Quot.sound
X7.IterChange.C102_kept: propext, Classical.choice, Quot.sound
X7.IterChange.C102_replacing: propext, Classical.choice, Quot.sound
X7.IterChange.C102_restore: propext, Classical.choice, Quot.sound
X7.IterChange.C102_size: propext, Classical.choice, Quot.sound
X7.IterChange.C102_skip_counterexample: propext
X7.C103_canvas_fit: propext, Classical.choice, Quot.sound
X7.C103_keep_aspect: propext, Classical.choice, Quot.sound
X7.C103_longest_counterexample: propext, Classical.choice, Quot.sound
X7.C103_normalized: propext, Classical.choice, Quot.sound
X7.C103_normalized_longest: propext, Classical.choice, Quot.sound
X7.C103_normalized_nan: propext, Classical.choice, Quot.sound
X7.C103_scaled: propext, Classical.choice, Quot.sound
X7.C103_smoothed: propext, Classical.choice, Quot.sound
X7.C103_smoothed_mean: propext, Classical.choice, Quot.sound
X7.C103_transform_untransform: propext, Classical.choice, Quot.sound
X7.C103_untransform_transform: propext, Classical.choice, Quot.sound
X7.Fmt.C104_closest_errors: propext, Classical.choice, Quot.sound
X7.Fmt.C104_closest_transfer: propext, Classical.choice, Quot.sound
X7.Fmt.C104_intersection_errors: propext, Classical.choice, Quot.sound
X7.Fmt.C104_nan_counterexample: propext, Classical.choice, Quot.sound
X7.Fmt.C104_normalized: propext, Classical.choice, Quot.sound
X7.Fmt.C104_normalized_nan: propext, Classical.choice, Quot.sound
X7.Fmt.C104_normalized_overflow: propext, Classical.choice, Quot.sound
X7.Fmt.C104_normalized_underflow: propext, Classical.choice, Quot.sound
X7.Fmt.C104_parallel_iff: propext, Classical.choice, Quot.sound
X7.Fmt.C104_parallel_symm: propext, Classical.choice, Quot.sound
X7.Fmt.C104_perpendicular: propext, Classical.choice, Quot.sound
X7.Fmt.C104_perpendicular_counterexample: propext, Classical.choice, Quot.sound
X7.Fmt.C104_segment_errors: propext, Classical.choice, Quot.sound
X7.Fmt.C104_segment_sound: propext, Classical.choice, Quot.sound
X7.Fmt.C104_segment_transfer: propext, Classical.choice, Quot.sound
X7.Fmt.C104_self_parallel: propext, Classical.choice, Quot.sound
X7.Fmt.C104_transfer: propext, Classical.choice, Quot.sound
X7.Fmt.C104_unit_counterexample: propext, Classical.choice, Quot.sound
X7.Fmt.C104_unit_errors: propext, Classical.choice, Quot.sound
X7.Fmt.C105_bbox: propext, Classical.choice, Quot.sound
X7.Fmt.C105_bbox_error: propext, Classical.choice, Quot.sound
X7.Fmt.C105_centres: propext, Classical.choice, Quot.sound
X7.Fmt.C105_double: propext, Classical.choice, Quot.sound
X7.Fmt.C105_double_ok: propext, Classical.choice, Quot.sound
X7.Fmt.C105_in_box: propext, Classical.choice, Quot.sound
X7.Fmt.C105_linear_counterexample: propext, Classical.choice, Quot.sound
X7.Fmt.C105_linear_ends: propext, Classical.choice, Quot.sound
X7.Fmt.C105_linear_finite: propext, Classical.choice, Quot.sound
X7.Fmt.C105_morph: propext, Classical.choice, Quot.sound
X7.Fmt.C105_morph_far: propext, Classical.choice, Quot.sound
X7.Fmt.C105_morph_near: propext, Classical.choice, Quot.sound
X7.Fmt.C105_not_finite: propext, Classical.choice, Quot.sound
X7.Fmt.C105_overflow_counterexample: propext, Classical.choice, Quot.sound
X7.Fmt.C105_path: propext, Classical.choice, Quot.sound
X7.Fmt.C105_samples: propext, Classical.choice, Quot.sound
X7.Fmt.C105_split_counterexample: propext, Classical.choice, Quot.sound
X7.Fmt.C105_split_inside: propext, Classical.choice, Quot.sound
X7.Fmt.C105_split_near: propext, Classical.choice, Quot.sound
X7.Fmt.C105_transfer: propext, Classical.choice, Quot.sound
X7.CH.C106_history: propext, Classical.choice, Quot.sound
X7.CH.C106_made: propext, Classical.choice, Quot.sound
X7.CH.C106_others: propext, Classical.choice, Quot.sound
X7.CH.C106_outline: propext, Classical.choice, Quot.sound
X7.CH.C106_points_stay: propext, Classical.choice, Quot.sound
X7.CH.C106_program: propext, Classical.choice, Quot.sound
X7.CH.C106_shared_counterexample: propext, Classical.choice, Quot.sound
X7.CH.C106_undo: propext, Classical.choice, Quot.sound
X7.CH.C106_undo_counterexample: propext, Classical.choice, Quot.sound
X7.Build.C107_drawn: propext, Classical.choice, Quot.sound
X7.Build.C107_kept: propext, Classical.choice, Quot.sound
X7.Build.C107_on_top_counterexample: propext, Classical.choice, Quot.sound
X7.Build.C107_point_counterexample: propext, Classical.choice, Quot.sound
X7.Build.C107_saved: propext, Classical.choice, Quot.sound
X7.MH.C108_chain_counterexample: propext, Classical.choice, Quot.sound
X7.MH.C108_ends: propext, Classical.choice, Quot.sound
X7.MH.C108_hidden: propext, Classical.choice, Quot.sound
X7.MH.C108_history: propext, Classical.choice, Quot.sound
X7.MH.C108_made: propext, Classical.choice, Quot.sound
X7.MH.C108_morph: propext, Classical.choice, Quot.sound
X7.MH.C108_outline: propext, Classical.choice, Quot.sound
X7.MH.C108_program: propext, Classical.choice, Quot.sound
X7.MH.C108_reversed_counterexample: propext, Classical.choice, Quot.sound
X7.MH.C108_update: propext, Classical.choice, Quot.sound
X7.Failed.C109_boxes: propext, Classical.choice, Quot.sound
X7.Failed.C109_builders: propext, Classical.choice, Quot.sound
X7.Failed.C109_curves: propext, Classical.choice, Quot.sound
X7.Failed.C109_lines: propext, Quot.sound
X7.Failed.C109_morph: propext, Classical.choice, Quot.sound
X7.Failed.C109_morph_counterexample: propext, Classical.choice, Quot.sound
X7.Failed.C109_points: propext, Quot.sound
X7.Failed.C109_replace: propext, Classical.choice, Quot.sound
X7.Failed.C109_restore_counterexample: propext, Classical.choice, Quot.sound
X7.Failed.C109_scale_bbox: propext, Classical.choice, Quot.sound
X7.Failed.C109_scale_bbox_counterexample: propext, Classical.choice, Quot.sound
X7.Failed.C109_transforms: propext, Classical.choice, Quot.sound
X7.Failed.C109_transforms_counterexample: propext, Classical.choice, Quot.sound
X7.Failed.C109_update: propext, Classical.choice, Quot.sound
X7.BBox.C10_grow_holds: propext, Classical.choice, Quot.sound
X7.BBox.C10_grow_least: propext, Quot.sound
X7.BBox.C10_grow_mono: propext, Classical.choice, Quot.sound
X7.BBox.C10_grow_none_iff: propext, Classical.choice, Quot.sound
X7.BBox.C10_grow_order: propext, Classical.choice, Quot.sound
X7.Multi.C110_hidden: propext, Classical.choice, Quot.sound
X7.Multi.C110_history: propext, Classical.choice, Quot.sound
X7.Multi.C110_made: propext, Classical.choice, Quot.sound
X7.Multi.C110_multi: propext, Classical.choice, Quot.sound
X7.Multi.C110_outline: propext, Classical.choice, Quot.sound
X7.Multi.C110_program: propext, Classical.choice, Quot.sound
X7.Multi.C110_turn_counterexample: propext, Classical.choice, Quot.sound
X7.Multi.C110_update: propext, Classical.choice, Quot.sound
X7.Stage.C111_elems: propext, Classical.choice, Quot.sound
X7.Stage.C111_equal_counterexample: propext, Classical.choice, Quot.sound
X7.Stage.C111_history: propext, Classical.choice, Quot.sound
X7.Stage.C111_nested_counterexample: propext, Classical.choice, Quot.sound
X7.Stage.C111_order_counterexample: propext, Classical.choice, Quot.sound
X7.Stage.C111_restore: propext, Classical.choice, Quot.sound
X7.Stage.C111_tree: propext, Classical.choice, Quot.sound
X7.Stage.C111_undo: propext, Classical.choice, Quot.sound
X7.Scene.C112_apart: propext, Classical.choice, Quot.sound
X7.Scene.C112_circular: propext, Classical.choice, Quot.sound
X7.Scene.C112_frame: propext, Classical.choice, Quot.sound
X7.Scene.C112_frames: propext, Classical.choice, Quot.sound
X7.Scene.C112_generic: propext, Classical.choice, Quot.sound
X7.Scene.C112_linear: propext, Classical.choice, Quot.sound
X7.Scene.C112_morph: propext, Classical.choice, Quot.sound
X7.Scene.C112_multi: propext, Classical.choice, Quot.sound
X7.Scene.C112_order_counterexample: propext, Classical.choice, Quot.sound
X7.Scene.C112_others: propext, Classical.choice, Quot.sound
X7.Scene.C112_points_first: propext, Classical.choice, Quot.sound
X7.Scene.C112_sinusoidal: propext, Classical.choice, Quot.sound
X7.Scene.C112_stops: propext, Classical.choice, Quot.sound
X7.Scene.C112_time: propext, Classical.choice, Quot.sound
X7.LK.C113_addOne: propext, Classical.choice, Quot.sound
X7.LK.C113_addOne_empty: propext, Classical.choice, Quot.sound
X7.LK.C113_addOne_links: propext, Classical.choice, Quot.sound
X7.LK.C113_addOne_orphans: propext, Classical.choice, Quot.sound
X7.LK.C113_addOne_orphans_counterexample: propext, Classical.choice, Quot.sound
X7.LK.C113_addOne_torn: propext, Classical.choice, Quot.sound
X7.LK.C113_addOne_torn_counterexample: propext, Classical.choice, Quot.sound
X7.LK.C113_copy: propext, Classical.choice, Quot.sound
X7.LK.C113_cp_copy: propext, Classical.choice, Quot.sound
X7.LK.C113_cp_restore: propext, Classical.choice, Quot.sound
X7.LK.C113_handle_copy_counterexample: propext, Classical.choice, Quot.sound
X7.LK.C113_move: propext, Classical.choice, Quot.sound
X7.LK.C113_others: propext, Classical.choice, Quot.sound
X7.LK.C113_restore: propext, Classical.choice, Quot.sound
X7.LK.C113_restore_links: propext, Classical.choice, Quot.sound
X7.LK.C113_restore_mismatch: propext, Classical.choice, Quot.sound
X7.LK.C113_reversed: propext, Classical.choice, Quot.sound
X7.LK.C113_rigid: propext, Classical.choice, Quot.sound
X7.LK.C113_snapshot: propext, Classical.choice, Quot.sound
X7.LK.C113_still: propext, Classical.choice, Quot.sound
X7.LK.C113_transform: propext, Classical.choice, Quot.sound
X7.LK.C113_undo: propext, Classical.choice, Quot.sound
X7.LK.C113_undo_counterexample: propext, Classical.choice, Quot.sound
X7.SH.C114_caller: propext, Classical.choice, Quot.sound
X7.SH.C114_copy: propext, Classical.choice, Quot.sound
X7.SH.C114_copy_transform_counterexample: propext, Classical.choice, Quot.sound
X7.SH.C114_digi: propext, Classical.choice, Quot.sound
X7.SH.C114_digi_handles: propext, Classical.choice, Quot.sound
X7.SH.C114_handles: propext, Classical.choice, Quot.sound
X7.SH.C114_handles_stale_counterexample: propext, Classical.choice, Quot.sound
X7.SH.C114_history: propext, Classical.choice, Quot.sound
X7.SH.C114_make: propext, Classical.choice, Quot.sound
X7.SH.C114_move: propext, Classical.choice, Quot.sound
X7.SH.C114_others: propext, Classical.choice, Quot.sound
X7.SH.C114_owner: propext, Classical.choice, Quot.sound
X7.SH.C114_points: propext, Classical.choice, Quot.sound
X7.SH.C114_restore: propext, Classical.choice, Quot.sound
X7.SH.C114_restore_class: propext, Classical.choice, Quot.sound
X7.SH.C114_restore_class_counterexample: propext, Classical.choice, Quot.sound
X7.SH.C114_setXf: propext, Classical.choice, Quot.sound
X7.SH.C114_transform: propext, Classical.choice, Quot.sound
X7.SH.C114_undo: propext, Classical.choice, Quot.sound
X7.SH.C114_update: propext, Classical.choice, Quot.sound
X7.GH.C115_acyclic: propext, Classical.choice, Quot.sound
X7.GH.C115_add: propext, Classical.choice, Quot.sound
X7.GH.C115_context: propext, Classical.choice, Quot.sound
X7.GH.C115_copy: propext, Classical.choice, Quot.sound
X7.GH.C115_copy_live: propext, Classical.choice, Quot.sound
X7.GH.C115_draw: propext, Classical.choice, Quot.sound
X7.GH.C115_history: propext, Classical.choice, Quot.sound
X7.GH.C115_leaf: propext, Classical.choice, Quot.sound
X7.GH.C115_names: propext, Classical.choice, Quot.sound
X7.GH.C115_others: propext, Classical.choice, Quot.sound
X7.GH.C115_recursion: propext, Classical.choice, Quot.sound
X7.GH.C115_restore: propext, Classical.choice, Quot.sound
X7.GH.C115_restore_loop_counterexample: propext, Classical.choice, Quot.sound
X7.GH.C115_second_undo_counterexample: propext, Classical.choice, Quot.sound
X7.GH.C115_self_counterexample: propext, Classical.choice, Quot.sound
X7.GH.C115_shared_name_counterexample: propext, Classical.choice, Quot.sound
X7.GH.C115_transform: propext, Classical.choice, Quot.sound
X7.GH.C115_tree: propext, Classical.choice, Quot.sound
X7.GH.C115_undo: propext, Classical.choice, Quot.sound
X7.GH.C115_undo_elements_counterexample: propext, Classical.choice, Quot.sound
X7.DH.C116_comma_empty: propext, Classical.choice, Quot.sound
X7.DH.C116_depth: propext, Classical.choice, Quot.sound
X7.DH.C116_file: propext, Classical.choice, Quot.sound
X7.DH.C116_imports: propext, Classical.choice, Quot.sound
X7.DH.C116_imports_order: propext, Classical.choice, Quot.sound
X7.DH.C116_lines: propext, Classical.choice, Quot.sound
X7.DH.C116_second_counterexample: propext, Classical.choice, Quot.sound
X7.DH.C116_text: propext, Classical.choice, Quot.sound
X7.DH.C116_with: propext, Classical.choice, Quot.sound
X7.DH.C116_with_counterexample: propext, Classical.choice, Quot.sound
X7.RB.C117_adjust: propext, Quot.sound
X7.RB.C117_adjust_counterexample: propext, Classical.choice, Quot.sound
X7.RB.C117_agrees: propext, Classical.choice, Quot.sound
X7.RB.C117_assertion_counterexample: propext, Classical.choice, Quot.sound
X7.RB.C117_depth_counterexample: propext, Classical.choice, Quot.sound
X7.RB.C117_failed: propext, Quot.sound
X7.RB.C117_itself_counterexample: propext, Classical.choice, Quot.sound
X7.RB.C117_loop: propext, Classical.choice, Quot.sound
X7.RB.C117_moves: propext, Classical.choice, Quot.sound
X7.RB.C117_mutual_counterexample: propext, Classical.choice, Quot.sound
X7.RB.C117_place: propext, Quot.sound
X7.RB.C117_place_calc: propext, Quot.sound
X7.RB.C117_reading: propext, Classical.choice, Quot.sound
X7.RB.C117_safe: propext, Classical.choice, Quot.sound
X7.RB.C117_self_equal: propext, Classical.choice, Quot.sound
X7.RB.C117_shallow: propext, Classical.choice, Quot.sound
X7.GL.C118_count_counterexample: propext, Classical.choice, Quot.sound
X7.GL.C118_depth: propext, Classical.choice, Quot.sound
X7.GL.C118_encloses: propext, Classical.choice, Quot.sound
X7.GL.C118_gone: propext, Classical.choice, Quot.sound
X7.GL.C118_into_itself_counterexample: propext, Classical.choice, Quot.sound
X7.GL.C118_iter: propext, Classical.choice, Quot.sound
X7.GL.C118_look: propext, Classical.choice, Quot.sound
X7.GL.C118_lookup: propext, Classical.choice, Quot.sound
X7.GL.C118_lookup_tree: propext, Classical.choice, Quot.sound
X7.GL.C118_loop: propext, Classical.choice, Quot.sound
X7.GL.C118_lost_counterexample: propext, Classical.choice, Quot.sound
X7.GL.C118_refused: propext, Classical.choice, Quot.sound
X7.GL.C118_replace: propext, Classical.choice, Quot.sound
X7.XH.C119_alien: propext, Classical.choice, Quot.sound
X7.XH.C119_call: propext, Classical.choice, Quot.sound
X7.XH.C119_copy: propext, Classical.choice, Quot.sound
X7.XH.C119_history: propext, Classical.choice, Quot.sound
X7.XH.C119_inverse_shared: propext, Classical.choice, Quot.sound
X7.XH.C119_matrix_array: propext, Classical.choice, Quot.sound
X7.XH.C119_matrix_dot: propext, Classical.choice, Quot.sound
X7.XH.C119_matrix_new: propext, Classical.choice, Quot.sound
X7.XH.C119_new: propext, Classical.choice, Quot.sound
X7.XH.C119_results: propext, Classical.choice, Quot.sound
X7.XH.C119_roundtrip: propext, Classical.choice, Quot.sound
X7.XH.C119_spoilt_counterexample: propext, Classical.choice, Quot.sound
X7.XH.C119_write: propext, Classical.choice, Quot.sound
X7.BBox.C11_absorb: propext, Classical.choice, Quot.sound
X7.BBox.C11_inter_assoc: propext, Classical.choice, Quot.sound
X7.BBox.C11_inter_comm: propext, Classical.choice, Quot.sound
X7.BBox.C11_inter_idem: propext, Classical.choice, Quot.sound
X7.BBox.C11_inter_none: propext
X7.BBox.C11_none_iff_disjoint: propext, Classical.choice, Quot.sound
X7.BBox.C11_region_inter: propext, Quot.sound
X7.Approx.C120_arc: propext, Classical.choice, Quot.sound
X7.Approx.C120_bez_path: propext, Classical.choice, Quot.sound
X7.Approx.C120_circle: propext, Classical.choice, Quot.sound
X7.Approx.C120_curve: propext, Classical.choice, Quot.sound
X7.Approx.C120_ellipse: propext, Classical.choice, Quot.sound
X7.Approx.C120_limit: propext, Classical.choice, Quot.sound
X7.Approx.C120_rounded: propext, Classical.choice, Quot.sound
X7.Approx.C120_sharp: propext, Classical.choice, Quot.sound
X7.Approx.C120_sweep: propext, Classical.choice, Quot.sound
X7.Approx.C121_arc: propext, Classical.choice, Quot.sound
X7.Approx.C121_bez_path: propext, Classical.choice, Quot.sound
X7.Approx.C121_circle: propext, Classical.choice, Quot.sound
X7.Approx.C121_curve: propext, Classical.choice, Quot.sound
X7.Approx.C121_ellipse: propext, Classical.choice, Quot.sound
X7.Approx.C121_ellipse_curve: propext, Classical.choice, Quot.sound
X7.Approx.C121_limit: propext, Classical.choice, Quot.sound
X7.Approx.C121_sweep: propext, Classical.choice, Quot.sound
X7.Approx.C121_transform: propext, Classical.choice, Quot.sound
X7.Info.C122_bytes: propext, Classical.choice, Quot.sound
X7.Info.C122_colours: propext, Classical.choice, Quot.sound
X7.Info.C122_four_channels: propext, Classical.choice, Quot.sound
X7.Info.C122_interleaved_counterexample: propext, Classical.choice, Quot.sound
X7.Info.C122_listing: propext, Classical.choice, Quot.sound
X7.Info.C122_no_palette: propext, Classical.choice, Quot.sound
X7.Info.C122_row: propext
X7.Info.C122_row_determines: propext, Classical.choice, Quot.sound
X7.Info.C122_rows: propext, Classical.choice, Quot.sound
X7.Approx.C123_bez_path: propext, Classical.choice, Quot.sound
X7.Approx.C123_doubles: propext, Classical.choice, Quot.sound
X7.HH.C124_apart: propext, Classical.choice, Quot.sound
X7.HH.C124_copy: propext, Classical.choice, Quot.sound
X7.HH.C124_copy_apart: propext, Classical.choice, Quot.sound
X7.HH.C124_copy_moves_counterexample: propext, Classical.choice, Quot.sound
X7.HH.C124_copy_shares: propext, Classical.choice, Quot.sound
X7.HH.C124_history: propext, Classical.choice, Quot.sound
X7.HH.C124_list: propext, Classical.choice, Quot.sound
X7.HH.C124_made: propext, Classical.choice, Quot.sound
X7.HH.C124_open_part: propext, Classical.choice, Quot.sound
X7.HH.C124_others: propext, Classical.choice, Quot.sound
X7.HH.C124_read: propext, Classical.choice, Quot.sound
X7.HH.C124_restore: propext, Classical.choice, Quot.sound
X7.HH.C124_restore_half_counterexample: propext, Classical.choice, Quot.sound
X7.HH.C124_total: propext, Classical.choice, Quot.sound
X7.HH.C124_transform: propext, Classical.choice, Quot.sound
X7.HH.C124_undo: propext, Classical.choice, Quot.sound
X7.HH.C124_undo_holes_counterexample: propext, Classical.choice, Quot.sound
X7.Refine.C125_add_one: propext, Classical.choice, Quot.sound
X7.Refine.C125_add_one_box_counterexample: propext, Classical.choice, Quot.sound
X7.Refine.C125_box: propext, Classical.choice, Quot.sound
X7.Refine.C125_box_open: propext, Classical.choice, Quot.sound
X7.Refine.C125_box_open_counterexample: propext, Classical.choice, Quot.sound
X7.Refine.C125_box_sharp: propext, Classical.choice, Quot.sound
X7.Refine.C125_handles: propext, Classical.choice, Quot.sound
X7.Refine.C125_loop_never_split: propext, Classical.choice, Quot.sound
X7.Refine.C125_pieces: propext, Classical.choice, Quot.sound
X7.Refine.C125_pieces_cover: propext, Classical.choice, Quot.sound
X7.Refine.C125_polygon: propext, Classical.choice, Quot.sound
X7.Refine.C125_split: propext, Classical.choice, Quot.sound
X7.VF.C126_defined: propext, Classical.choice, Quot.sound
X7.VF.C126_opposed_counterexample: propext, Classical.choice, Quot.sound
X7.VF.C126_shift: propext, Classical.choice, Quot.sound
X7.VF.C126_side: propext, Classical.choice, Quot.sound
X7.VF.C126_uniform: propext, Classical.choice, Quot.sound
X7.VF.C126_uniform_stays: propext, Classical.choice, Quot.sound
X7.Approx.C127_add_one: propext, Classical.choice, Quot.sound
X7.Approx.C127_bez_path: propext, Classical.choice, Quot.sound
X7.Approx.C127_bez_path_limit: propext, Classical.choice, Quot.sound
X7.Approx.C127_curve: propext, Classical.choice, Quot.sound
X7.Approx.C127_elem: propext, Classical.choice, Quot.sound
X7.Approx.C127_reverse: propext, Classical.choice, Quot.sound
X7.Approx.C127_segment: propext, Classical.choice, Quot.sound
X7.Approx.C127_self_intersect: propext, Classical.choice, Quot.sound
X7.Approx.C127_split: propext, Classical.choice, Quot.sound
X7.Approx.C127_transform: propext, Classical.choice, Quot.sound
X7.Elem.C128_area: propext, Classical.choice, Quot.sound
X7.Elem.C128_nested_counterexample: propext, Classical.choice, Quot.sound
X7.Elem.C128_open_counterexample: propext, Classical.choice, Quot.sound
X7.Elem.C128_outside_counterexample: propext, Classical.choice, Quot.sound
X7.Elem.C128_overlap_counterexample: propext, Classical.choice, Quot.sound
X7.Elem.C128_parity: propext, Classical.choice, Quot.sound
X7.Elem.C128_rectangle: propext, Classical.choice, Quot.sound
X7.Elem.C128_region: propext, Classical.choice, Quot.sound
X7.Anim.C129_frames: propext, Classical.choice, Quot.sound
X7.Anim.C129_interpolate: propext, Classical.choice, Quot.sound
X7.Anim.C129_loop: propext, Classical.choice, Quot.sound
X7.Anim.C129_morph: propext, Classical.choice, Quot.sound
X7.Anim.C129_multi: propext, Classical.choice, Quot.sound
X7.Anim.C129_offset_counterexample: propext, Classical.choice, Quot.sound
X7.Anim.C129_periodic: propext, Classical.choice, Quot.sound
X7.Anim.C129_point: propext, Classical.choice, Quot.sound
X7.Anim.C129_ramp: propext, Classical.choice, Quot.sound
X7.Anim.C129_sharp: propext, Classical.choice, Quot.sound
X7.BBox.C12_contains_equiv: propext, Classical.choice, Quot.sound
X7.BBox.C12_contains_iff: propext
X7.BBox.C12_partial_order: propext
X7.Elem.C130_bbox: propext, Classical.choice, Quot.sound
X7.Elem.C130_box: propext, Classical.choice, Quot.sound
X7.Elem.C130_direction: propext, Classical.choice, Quot.sound
X7.Elem.C130_element: propext, Classical.choice, Quot.sound
X7.Elem.C130_paths: propext, Classical.choice, Quot.sound
X7.Elem.C130_side_counterexample: propext, Classical.choice, Quot.sound
X7.Elem.C130_transform: propext, Classical.choice, Quot.sound
X7.Elem.C131_connected: propext, Classical.choice, Quot.sound
X7.Elem.C131_ellipse: propext, Classical.choice, Quot.sound
X7.Elem.C131_hull: propext, Classical.choice, Quot.sound
X7.Elem.C131_outline: propext, Classical.choice, Quot.sound
X7.Elem.C131_ray: propext, Classical.choice, Quot.sound
X7.Elem.C131_segment: propext, Classical.choice, Quot.sound
X7.Elem.C132_bez_path: propext, Classical.choice, Quot.sound
X7.Elem.C132_curve: propext, Classical.choice, Quot.sound
X7.Elem.C132_limit: propext, Classical.choice, Quot.sound
X7.Elem.C132_morph: propext, Classical.choice, Quot.sound
X7.Elem.C132_moved: propext, Classical.choice, Quot.sound
X7.Elem.C132_moved_sharp: propext, Classical.choice, Quot.sound
X7.Elem.C132_rounded: propext, Classical.choice, Quot.sound
X7.Elem.C133_rounded: propext, Classical.choice, Quot.sound
X7.Elem.C133_zero: propext, Classical.choice, Quot.sound
X7.Elem.C134_add_one: propext, Classical.choice, Quot.sound
X7.Elem.C134_elem: propext, Classical.choice, Quot.sound
X7.Elem.C134_reverse: propext, Classical.choice, Quot.sound
X7.Elem.C134_self_intersect: propext, Classical.choice, Quot.sound
X7.Elem.C135_group: propext, Classical.choice, Quot.sound
X7.Elem.C135_keeps: propext, Classical.choice, Quot.sound
X7.Elem.C135_limit: propext, Classical.choice, Quot.sound
X7.Elem.C135_outside: propext, Classical.choice, Quot.sound
X7.Elem.C135_picture: propext, Classical.choice, Quot.sound
X7.Elem.C135_shadow: propext, Classical.choice, Quot.sound
X7.Elem.C135_steps: propext, Classical.choice, Quot.sound
X7.Elem.C135_top: propext, Classical.choice, Quot.sound
X7.Elem.C135_transform: propext, Classical.choice, Quot.sound
X7.Elem.C136_area: propext, Classical.choice, Quot.sound
X7.Elem.C136_at_most: propext, Classical.choice, Quot.sound
X7.Elem.C136_convex: propext, Classical.choice, Quot.sound
X7.Elem.C136_curve: propext, Classical.choice, Quot.sound
X7.Elem.C136_holes: propext, Classical.choice, Quot.sound
X7.Elem.C136_integral: propext, Classical.choice, Quot.sound
X7.Elem.C136_odd: propext, Classical.choice, Quot.sound
X7.Elem.C136_rectangle: propext, Classical.choice, Quot.sound
X7.Elem.C136_twice_counterexample: propext, Classical.choice, Quot.sound
X7.Elem.C137_element: propext, Classical.choice, Quot.sound
X7.Elem.C137_ellipse: propext, Classical.choice, Quot.sound
X7.Elem.C137_flat: propext, Classical.choice, Quot.sound
X7.Elem.C137_rounded: propext, Classical.choice, Quot.sound
X7.Elem.C137_rounded_zero: propext, Classical.choice, Quot.sound
X7.Elem.C137_transform: propext, Classical.choice, Quot.sound
X7.Elem.C138_corners: propext, Classical.choice, Quot.sound
X7.Elem.C138_exact: propext, Classical.choice, Quot.sound
X7.Elem.C138_limit: propext, Classical.choice, Quot.sound
X7.Elem.C138_morph: propext, Classical.choice, Quot.sound
X7.Elem.C138_moved: propext, Classical.choice, Quot.sound
X7.Elem.C138_rounded: propext, Classical.choice, Quot.sound
X7.Elem.C138_simple: propext, Classical.choice, Quot.sound
X7.Elem.C138_steps: propext, Classical.choice, Quot.sound
X7.Elem.C138_winding: propext, Classical.choice, Quot.sound
X7.BBox.C13_area: propext, Classical.choice, Quot.sound
X7.BBox.C13_overlaps_area: propext, Classical.choice, Quot.sound
X7.BBox.C13_overlaps_iff_common_interior: propext
X7.BBox.C13_overlaps_iff_fat: propext, Quot.sound
X7.BBox.C13_side_touches: propext
X7.BBox.C13_symm: propext, Classical.choice, Quot.sound
X7.BBox.C13_touches: propext
X7.BBox.C13_touches_area: propext, Classical.choice, Quot.sound
X7.BBox.C13_touches_exact: propext
X7.BBox.C13_trichotomy: propext, Classical.choice, Quot.sound
X7.BBox.C14_contains_corners_closed: propext
X7.BBox.C14_contains_corners_counterexample: propext, Classical.choice, Quot.sound
X7.BBox.C14_none_behaviour: propext
X7.BBox.C14_overlaps_corner_counterexample: propext, Classical.choice, Quot.sound
X7.BBox.C14_overlaps_degenerate_counterexample: propext, Classical.choice, Quot.sound
X7.BBox.C14_point_tests: propext, Classical.choice, Quot.sound
X7.BBox.C14_touches_corners_counterexample: propext, Classical.choice, Quot.sound
X7.BBox.C14_touches_not_contains_counterexample: propext, Classical.choice, Quot.sound
X7.BBox.C14_touches_not_contains_fat: propext
X7.BBox.C15_expand_add: propext, Classical.choice, Quot.sound
X7.BBox.C15_expand_add_counterexample: propext, Classical.choice, Quot.sound
X7.BBox.C15_expand_mono: propext, Classical.choice, Quot.sound
X7.BBox.C15_expand_size: propext, Classical.choice, Quot.sound
X7.BBox.C16_transformed_id: propext, Classical.choice, Quot.sound
X7.BBox.C16_transformed_tight: propext, Classical.choice, Quot.sound
X7.Line.C17_nearest: propext, Classical.choice, Quot.sound
X7.Line.C17_raises_iff: propext, Classical.choice, Quot.sound
X7.Line.C18_construction: propext, Quot.sound
X7.Line.C18_raises_iff: propext, Quot.sound
X7.Line.C18_symm: propext, Classical.choice, Quot.sound
X7.Line.C18_unique_common_point: propext, Classical.choice, Quot.sound
X7.Line.C19_exceptions: propext, Classical.choice, Quot.sound
X7.Line.C19_sound: propext, Classical.choice, Quot.sound
X7.Line.C20_collinear_counterexample: propext, Classical.choice, Quot.sound
X7.Line.C20_found_iff_boxes_overlap: propext, Classical.choice, Quot.sound
X7.Line.C20_proper_crossing_found: propext, Classical.choice, Quot.sound
X7.Line.C20_touching_counterexample: propext, Classical.choice, Quot.sound
X7.C21_copy: propext, Classical.choice, Quot.sound
X7.C21_history: propext, Classical.choice, Quot.sound
X7.C21_history_from: propext, Classical.choice, Quot.sound
X7.C22_exact: propext, Classical.choice, Quot.sound
X7.C22_rotate_about_counterexample: propext, Classical.choice, Quot.sound
X7.C22_roundtrip: propext, Classical.choice, Quot.sound
X7.C22_roundtrip_iff: propext, Classical.choice, Quot.sound
X7.C23_depth: propext, Classical.choice, Quot.sound
X7.C23_pop_empty: propext, Classical.choice, Quot.sound
X7.C23_push_pop_restores: propext, Classical.choice, Quot.sound
X7.C23_with_header_counterexample: propext, Classical.choice, Quot.sound
X7.C23_with_restores: propext, Classical.choice, Quot.sound
X7.C24_none: propext, Classical.choice, Quot.sound
X7.C24_scale_bbox: propext, Classical.choice, Quot.sound
X7.C24_scale_bbox_keep_aspect: propext, Classical.choice, Quot.sound
X7.C24_zero_size: propext, Classical.choice, Quot.sound
X7.C25_additive: propext, Classical.choice, Quot.sound
X7.C25_fixes_centre: propext, Classical.choice, Quot.sound
X7.C25_inverse: propext, Classical.choice, Quot.sound
X7.C25_isometry: propext, Classical.choice, Quot.sound
X7.C25_rotate_doc_counterexample: propext, Classical.choice, Quot.sound
X7.C25_sense: propext, Classical.choice, Quot.sound
X7.C26_is_simple: propext, Classical.choice, Quot.sound
X7.C26_parts: propext, Classical.choice, Quot.sound
X7.C26_simplify: propext, Classical.choice, Quot.sound
X7.C26_simplify_exact: propext, Classical.choice, Quot.sound
X7.C27_canvas_fit: propext, Classical.choice, Quot.sound
X7.C27_scale_vals: propext, Classical.choice, Quot.sound
X7.C27_width: propext, Classical.choice, Quot.sound
X7.C27_width_linear: propext, Classical.choice, Quot.sound
X7.C27_width_similarity: propext, Classical.choice, Quot.sound
X7.C28_flatten: propext, Classical.choice, Quot.sound
X7.C28_transform_pts: propext, Classical.choice, Quot.sound
X7.C28_transform_pts_plain: propext, Classical.choice, Quot.sound
X7.C28_untransform_pts: propext, Classical.choice, Quot.sound
X7.C29_split_ends: propext, Quot.sound
X7.C29_split_joint: propext, Quot.sound
X7.C29_split_kind: propext, Quot.sound
X7.C29_split_traces: propext, Quot.sound
X7.C30_bez: propext, Classical.choice, Quot.sound
X7.C30_bez_zero: propext, Quot.sound
X7.C31_closed_ends: propext, Classical.choice, Quot.sound
X7.C31_empty: propext, Quot.sound
X7.C31_length: propext, Classical.choice, Quot.sound
X7.C31_points: propext, Classical.choice, Quot.sound
X7.C32_bbox_least: propext, Quot.sound
X7.C32_bbox_total: propext, Quot.sound
X7.C32_curve_in_bbox: propext, Classical.choice, Quot.sound
X7.C33_closed: propext, Quot.sound
X7.C33_involution: propext, Quot.sound
X7.C33_open: propext, Quot.sound
X7.C33_trace: propext, Quot.sound
X7.C34_compose: propext, Quot.sound
X7.C34_handles: propext, Quot.sound
X7.C34_identity_kind: propext, Classical.choice, Quot.sound
X7.C34_inverse: propext, Classical.choice, Quot.sound
X7.C34_trace: propext, Quot.sound
X7.C35_centre_kind: propext, Classical.choice, Quot.sound
X7.C35_other: propext, Classical.choice, Quot.sound
X7.C35_smooth: propext, Classical.choice, Quot.sound
X7.C35_smooth_zero_division: propext, Classical.choice, Quot.sound
X7.C35_very_smooth: propext, Classical.choice, Quot.sound
X7.C36_add_one_closed: propext, Classical.choice, Quot.sound
X7.C36_empty: propext, Classical.choice, Quot.sound
X7.C36_one_point_counterexample: propext, Classical.choice, Quot.sound
X7.C36_open_counterexample: propext, Classical.choice, Quot.sound
X7.C36_two_points: propext, Classical.choice, Quot.sound
X7.C37_bounded: propext, Classical.choice, Quot.sound
X7.C37_limit_sign_counterexample: propext, Classical.choice, Quot.sound
X7.C37_limited: propext, Classical.choice, Quot.sound
X7.C37_mitre: propext, Classical.choice, Quot.sound
X7.C37_straight: propext, Classical.choice, Quot.sound
X7.C37_zero_handle: propext, Classical.choice, Quot.sound
X7.Elem.C38_caller_matrix: propext, Classical.choice, Quot.sound
X7.Elem.C38_ellipse: propext, Classical.choice, Quot.sound
X7.Elem.C38_rect: propext, Classical.choice, Quot.sound
X7.Elem.C39_bbox_context: propext, Classical.choice, Quot.sound
X7.Elem.C39_bbox_encloses: propext, Classical.choice, Quot.sound
X7.Elem.C39_bbox_least: propext, Classical.choice, Quot.sound
X7.Elem.C39_group_least: propext, Classical.choice, Quot.sound
X7.Elem.C39_no_holes_counterexample: propext, Classical.choice, Quot.sound
X7.Elem.C39_outside_transform_counterexample: propext, Classical.choice, Quot.sound
X7.Elem.C39_rect_tight: propext, Classical.choice, Quot.sound
X7.Elem.C40_control_paths: propext, Classical.choice, Quot.sound
X7.Elem.C40_group_loop: propext, Classical.choice, Quot.sound
X7.Elem.C40_matrix_only: propext, Classical.choice, Quot.sound
X7.Elem.C40_paths: propext, Classical.choice, Quot.sound
X7.Elem.C41_copy: propext, Classical.choice, Quot.sound
X7.Elem.C41_leaves: propext, Classical.choice, Quot.sound
X7.Elem.C41_shape: propext, Classical.choice, Quot.sound
X7.Elem.C41_transform_curve: propext, Classical.choice, Quot.sound
X7.Elem.C41_transform_group: propext, Classical.choice, Quot.sound
X7.Elem.C41_transform_holes: propext, Classical.choice, Quot.sound
X7.GroupNames.C42_add_fails: propext, Classical.choice, Quot.sound
X7.GroupNames.C42_add_ok: propext, Classical.choice, Quot.sound
X7.GroupNames.C42_constructor: propext, Classical.choice, Quot.sound
X7.GroupNames.C42_fixname: propext, Quot.sound
X7.GroupNames.C42_history: propext, Classical.choice, Quot.sound
X7.GroupNames.C42_own_names: propext, Classical.choice, Quot.sound
X7.GroupNames.C42_search_ends: propext, Classical.choice, Quot.sound
X7.GroupNames.C42_shared_counterexample: propext, Classical.choice, Quot.sound
X7.Elem.C43_holes_counterexample: propext, Classical.choice, Quot.sound
X7.Elem.C43_holes_lookup: propext, Classical.choice, Quot.sound
X7.Elem.C43_iter: propext, Classical.choice, Quot.sound
X7.Elem.C43_lookup: propext, Classical.choice, Quot.sound
X7.Elem.C43_names: propext, Classical.choice, Quot.sound
X7.Elem.C43_shared_matrix_counterexample: propext, Classical.choice, Quot.sound
X7.Elem.C43_trailing_dot: propext, Classical.choice, Quot.sound
X7.Elem.C43_unknown: propext, Classical.choice, Quot.sound
X7.Elem.C44_atomic_counterexample: propext, Classical.choice, Quot.sound
X7.Elem.C44_holes_counterexample: propext, Classical.choice, Quot.sound
X7.Elem.C44_no_match: propext, Classical.choice, Quot.sound
X7.Elem.C44_one_match: propext, Classical.choice, Quot.sound
X7.Elem.C44_order_counterexample: propext, Classical.choice, Quot.sound
X7.Elem.C44_replace: propext, Classical.choice, Quot.sound
X7.Elem.C44_two_matches_counterexample: propext, Classical.choice, Quot.sound
X7.EH.C45_copy: propext, Classical.choice, Quot.sound
X7.EH.C45_copy_independent: propext, Classical.choice, Quot.sound
X7.EH.C45_copy_name_counterexample: propext, Classical.choice, Quot.sound
X7.EH.C45_copy_transform_counterexample: propext, Classical.choice, Quot.sound
X7.EH.C45_group_closed_counterexample: propext, Classical.choice, Quot.sound
X7.EH.C45_group_copy: propext, Classical.choice, Quot.sound
X7.EH.C45_group_restore: propext, Classical.choice, Quot.sound
X7.EH.C45_group_restore_counterexample: propext, Classical.choice, Quot.sound
X7.EH.C45_holes_copy: propext, Classical.choice, Quot.sound
X7.EH.C45_holes_restore_counterexample: propext, Classical.choice, Quot.sound
X7.EH.C45_restore: propext, Classical.choice, Quot.sound
X7.EH.C45_undo: propext, Classical.choice, Quot.sound
X7.Elem.C46_duplicates_counterexample: propext, Classical.choice, Quot.sound
X7.Elem.C46_group: propext, Classical.choice, Quot.sound
X7.Elem.C46_hidden: propext, Classical.choice, Quot.sound
X7.Elem.C46_holes_filled: propext, Classical.choice, Quot.sound
X7.Elem.C46_holes_simple: propext, Classical.choice, Quot.sound
X7.Elem.C46_holes_unfilled: propext, Classical.choice, Quot.sound
X7.Elem.C46_outside_one_path: propext, Classical.choice, Quot.sound
X7.Dump.C47_no_vars: propext, Classical.choice, Quot.sound
X7.Dump.C47_set_var: propext, Classical.choice, Quot.sound
X7.Dump.C48_corner_counterexample: propext, Classical.choice, Quot.sound
X7.Dump.C48_dump_appends: propext, Classical.choice, Quot.sound
X7.Dump.C48_group_counterexample: propext, Classical.choice, Quot.sound
X7.Dump.C48_group_forgets: propext, Classical.choice, Quot.sound
X7.Dump.C48_holes_counterexample: propext, Classical.choice, Quot.sound
X7.Dump.C48_output_empty: propext, Classical.choice, Quot.sound
X7.Dump.C48_roundtrip: propext, Classical.choice, Quot.sound
X7.Dump.C48_roundtrip_exact: propext, Classical.choice, Quot.sound
X7.C49_bbox: propext, Classical.choice, Quot.sound
X7.C49_deviation: propext, Classical.choice, Quot.sound
X7.C49_inside: propext, Classical.choice, Quot.sound
X7.C49_on_ellipse: propext, Classical.choice, Quot.sound
X7.C49_symmetric: propext, Classical.choice, Quot.sound
X7.C50_inside: propext, Classical.choice, Quot.sound
X7.C50_negative_radius_counterexample: propext, Classical.choice, Quot.sound
X7.C50_shape: propext, Classical.choice, Quot.sound
X7.C50_zero_radius: propext, Classical.choice, Quot.sound
X7.Utils.C51_min_rotation: propext, Classical.choice, Quot.sound
X7.Utils.C51_unique: propext, Classical.choice, Quot.sound
X7.Utils.C52_arc: propext, Classical.choice, Quot.sound
X7.Utils.C52_circle: propext, Classical.choice, Quot.sound
X7.Utils.C52_ends: propext, Classical.choice, Quot.sound
X7.Utils.C52_full_turn: propext, Classical.choice, Quot.sound
X7.Utils.C52_on_circle: propext, Classical.choice, Quot.sound
X7.Utils.C53_arc2p: propext, Classical.choice, Quot.sound
X7.Utils.C53_errors: propext, Classical.choice, Quot.sound
X7.Utils.C53_long_short: propext, Classical.choice, Quot.sound
X7.Utils.C54_check: propext, Classical.choice, Quot.sound
X7.Utils.C54_inverse: propext, Classical.choice, Quot.sound
X7.Utils.C54_pointwise: propext, Classical.choice, Quot.sound
X7.Utils.C54_rotate_sense: propext, Classical.choice, Quot.sound
X7.Utils.C54_total: propext, Classical.choice, Quot.sound
X7.Utils.C54_tuples_rejected: propext, Classical.choice, Quot.sound
X7.Utils.C54_wrong_entries: propext, Classical.choice, Quot.sound
X7.C55_arguments: propext, Classical.choice, Quot.sound
X7.C55_getitem: propext, Classical.choice, Quot.sound
X7.C55_make: propext, Classical.choice, Quot.sound
X7.C55_pair_counterexample: propext, Classical.choice, Quot.sound
X7.C55_pen_replace: propext, Classical.choice, Quot.sound
X7.C55_replace_colors: propext, Classical.choice, Quot.sound
X7.C55_replace_fails_iff: propext, Classical.choice, Quot.sound
X7.C55_replace_objects: propext, Classical.choice, Quot.sound
X7.C55_replace_width: propext, Classical.choice, Quot.sound
X7.C55_replace_width_all: propext, Classical.choice, Quot.sound
X7.C55_replace_width_zero: propext, Classical.choice, Quot.sound
X7.C55_repr_round_trip: propext, Classical.choice, Quot.sound
X7.C55_stroke_width: propext, Classical.choice, Quot.sound
X7.C55_stroke_width_nonneg: propext, Classical.choice, Quot.sound
X7.VF.C56_affine: propext, Classical.choice, Quot.sound
X7.VF.C56_bilinear: propext, Classical.choice, Quot.sound
X7.VF.C56_bounded: propext, Classical.choice, Quot.sound
X7.VF.C56_linear: propext, Classical.choice, Quot.sound
X7.VF.C56_node: propext, Classical.choice, Quot.sound
X7.VF.C56_quiver_counterexample: propext, Classical.choice, Quot.sound
X7.VF.C56_transform: propext, Classical.choice, Quot.sound
X7.VF.C56_transform_pts_counterexample: propext, Classical.choice, Quot.sound
X7.VF.C57_normalized: propext, Classical.choice, Quot.sound
X7.VF.C57_normalized_zero: propext, Classical.choice, Quot.sound
X7.VF.C57_scaled: propext, Classical.choice, Quot.sound
X7.VF.C57_scaled_lookup: propext, Classical.choice, Quot.sound
X7.VF.C57_smooth_bounded: propext, Classical.choice, Quot.sound
X7.VF.C57_smooth_mean: propext, Classical.choice, Quot.sound
X7.VF.C57_smoothed: propext, Classical.choice, Quot.sound
X7.VF.C57_window_counterexample: propext, Classical.choice, Quot.sound
X7.Anim.C58_chained_counterexample: propext, Classical.choice, Quot.sound
X7.Anim.C58_circular: propext, Classical.choice, Quot.sound
X7.Anim.C58_history: propext, Classical.choice, Quot.sound
X7.Anim.C58_holder: propext, Classical.choice, Quot.sound
X7.Anim.C58_linear: propext, Classical.choice, Quot.sound
X7.Anim.C58_sinusoidal: propext, Classical.choice, Quot.sound
X7.Morph.C59_end: propext, Classical.choice, Quot.sound
X7.Morph.C59_errors: propext, Classical.choice, Quot.sound
X7.Morph.C59_force: propext, Classical.choice, Quot.sound
X7.Morph.C59_hidden: propext, Classical.choice, Quot.sound
X7.Morph.C59_restore: propext, Classical.choice, Quot.sound
X7.Morph.C59_restore_counterexample: propext, Classical.choice, Quot.sound
X7.Morph.C59_start: propext, Classical.choice, Quot.sound
X7.Morph.C59_update: propext, Classical.choice, Quot.sound
X7.Morph.C60_at_step: propext, Classical.choice, Quot.sound
X7.Morph.C60_hidden_restore: propext, Classical.choice, Quot.sound
X7.Morph.C60_open_counterexample: propext, Classical.choice, Quot.sound
X7.Morph.C60_prepare: propext, Classical.choice, Quot.sound
X7.Morph.C60_update: propext, Classical.choice, Quot.sound
X7.Morph.C60_xform_counterexample: propext, Classical.choice, Quot.sound
X7.Anim.C61_bounded: propext, Classical.choice, Quot.sound
X7.Anim.C61_hide_if: propext, Classical.choice, Quot.sound
X7.Anim.C61_identity_xy: propext, Classical.choice, Quot.sound
X7.Anim.C61_identity_xy_value: propext, Classical.choice, Quot.sound
X7.Anim.C61_interpolate: propext, Classical.choice, Quot.sound
X7.Anim.C61_knots: propext, Classical.choice, Quot.sound
X7.Anim.C61_offset_counterexample: propext, Classical.choice, Quot.sound
X7.Anim.C61_periodic: propext, Classical.choice, Quot.sound
X7.Anim.C61_ramp: propext, Classical.choice, Quot.sound
X7.Anim.C61_ramp_monotone: propext, Classical.choice, Quot.sound
X7.Anim.C61_sin_and_cos: propext, Classical.choice, Quot.sound
X7.Anim.C61_sin_cos: propext, Classical.choice, Quot.sound
X7.Anim.C61_xy: propext, Classical.choice, Quot.sound
X7.Anim.C62_build_all: propext, Classical.choice, Quot.sound
X7.Anim.C62_simple_counterexample: propext, Classical.choice, Quot.sound
X7.Anim.C62_simple_zero: propext, Classical.choice, Quot.sound
X7.Anim.C62_times: propext, Classical.choice, Quot.sound
X7.Drawing.C63_autocrop: propext, Classical.choice, Quot.sound
X7.Drawing.C63_autocrop_empty_counterexample: propext
X7.Drawing.C63_bbox_max_algebra: propext
X7.Drawing.C63_bbox_max_none_counterexample: propext
X7.Drawing.C63_bbox_max_tight: propext, Classical.choice, Quot.sound
X7.Drawing.C63_crop: propext, Classical.choice, Quot.sound
X7.Drawing.C63_crop_counterexample: propext, Classical.choice, Quot.sound
X7.Drawing.C63_crop_positive: propext, Classical.choice, Quot.sound
X7.Drawing.C63_image: propext, Classical.choice, Quot.sound
X7.Drawing.C63_max_bbox: propext, Classical.choice, Quot.sound
X7.Drawing.C63_scale_unscale: propext, Classical.choice, Quot.sound
X7.Drawing.C63_shadow_again: propext, Classical.choice, Quot.sound
X7.Drawing.C63_shadow_image: propext, Classical.choice, Quot.sound
X7.Drawing.C63_shadow_nested_counterexample: propext
X7.Drawing.C63_shadow_restores: propext
X7.Drawing.C64_alpha: propext, Classical.choice, Quot.sound
X7.Drawing.C64_bytes: propext, Classical.choice, Quot.sound
X7.Drawing.C64_entries: propext, Classical.choice, Quot.sound
X7.Drawing.C64_errors: propext, Classical.choice, Quot.sound
X7.Drawing.C64_idempotent: propext, Classical.choice, Quot.sound
X7.Bzi.C65_none: propext, Classical.choice, Quot.sound
X7.Bzi.C65_result: propext, Classical.choice, Quot.sound
X7.Bzi.C65_result_ok: propext, Classical.choice, Quot.sound
X7.Bzi.C65_same_points: propext, Classical.choice, Quot.sound
X7.Bzi.C65_walk: propext, Classical.choice, Quot.sound
X7.Bzi.C65_walk_alternating: propext, Classical.choice, Quot.sound
X7.Bzi.C65_walk_counterexample: propext, Classical.choice, Quot.sound
X7.C66_nocolor_counterexample: propext, Classical.choice, Quot.sound
X7.C66_tables_agree: propext, Classical.choice, Quot.sound
X7.Elem.C67_rounded: propext, Classical.choice, Quot.sound
X7.Elem.C67_rounded_counterexample: propext, Classical.choice, Quot.sound
X7.Elem.C67_rounded_exchange: propext, Classical.choice, Quot.sound
X7.Utils.C68_markers: propext, Classical.choice, Quot.sound
X7.Elem.C69_bbox: propext, Classical.choice, Quot.sound
X7.Elem.C69_control_paths: propext, Classical.choice, Quot.sound
X7.Elem.C69_determined: propext, Classical.choice, Quot.sound
X7.Elem.C69_empty_counterexample: propext, Classical.choice, Quot.sound
X7.Elem.C69_fail: propext, Classical.choice, Quot.sound
X7.Elem.C69_group: propext, Classical.choice, Quot.sound
X7.Elem.C69_group_width_counterexample: propext, Classical.choice, Quot.sound
X7.Elem.C69_hidden: propext, Classical.choice, Quot.sound
X7.Elem.C69_holes: propext, Classical.choice, Quot.sound
X7.Elem.C69_holes_lines_counterexample: propext, Classical.choice, Quot.sound
X7.Elem.C69_keeps: propext, Classical.choice, Quot.sound
X7.Elem.C69_marker_corners_counterexample: propext, Classical.choice, Quot.sound
X7.Elem.C69_ops: propext, Classical.choice, Quot.sound
X7.Elem.C69_ops_cps: propext, Classical.choice, Quot.sound
X7.Elem.C69_shadow: propext, Classical.choice, Quot.sound
X7.Elem.C69_width: propext, Classical.choice, Quot.sound
X7.Elem.C70_as_curves: propext, Classical.choice, Quot.sound
X7.Elem.C70_drawn: propext, Classical.choice, Quot.sound
X7.Elem.C70_fails: propext, Classical.choice, Quot.sound
X7.Elem.C70_hidden_counterexample: propext, Classical.choice, Quot.sound
X7.Elem.C70_holes_counterexample: propext, Classical.choice, Quot.sound
X7.Elem.C71_drawn: propext, Classical.choice, Quot.sound
X7.Elem.C71_group: propext, Classical.choice, Quot.sound
X7.Elem.C71_hidden_counterexample: propext, Classical.choice, Quot.sound
X7.Elem.C71_holes: propext, Classical.choice, Quot.sound
X7.Elem.C71_names: propext, Classical.choice, Quot.sound
X7.Elem.C71_transform_caller: propext, Classical.choice, Quot.sound
X7.Build.C72_add: propext, Classical.choice, Quot.sound
X7.Build.C72_defaults: propext, Classical.choice, Quot.sound
X7.Build.C72_elem: propext, Classical.choice, Quot.sound
X7.Build.C72_fails: propext, Classical.choice, Quot.sound
X7.Build.C72_found: propext, Classical.choice, Quot.sound
X7.Build.C72_group: propext, Classical.choice, Quot.sound
X7.Build.C72_hide_counterexample: propext, Classical.choice, Quot.sound
X7.Build.C72_history: propext, Classical.choice, Quot.sound
X7.Build.C72_nested: propext, Classical.choice, Quot.sound
X7.Build.C72_points: propext, Classical.choice, Quot.sound
X7.Build.C72_rotate: propext, Classical.choice, Quot.sound
X7.Build.C72_rotate_drawn: propext, Classical.choice, Quot.sound
X7.Elem.C73_corners_counterexample: propext, Classical.choice, Quot.sound
X7.Elem.C73_direction: propext, Classical.choice, Quot.sound
X7.Elem.C73_parallel: propext, Classical.choice, Quot.sound
X7.Elem.C73_result: propext, Classical.choice, Quot.sound
X7.Elem.C73_rigid: propext, Classical.choice, Quot.sound
X7.Elem.C73_ring: propext, Classical.choice, Quot.sound
X7.Elem.C73_start: propext, Classical.choice, Quot.sound
X7.Elem.C73_zero: propext, Classical.choice, Quot.sound
X7.Dump.C74_bbox: propext, Classical.choice, Quot.sound
X7.Dump.C74_copy: propext, Classical.choice, Quot.sound
X7.Dump.C74_drawn: propext, Classical.choice, Quot.sound
X7.Dump.C74_dump: propext, Classical.choice, Quot.sound
X7.Dump.C74_dump_counterexample: propext, Classical.choice, Quot.sound
X7.Dump.C74_equivalence: propext, Classical.choice, Quot.sound
X7.Dump.C74_no_groups: propext, Classical.choice, Quot.sound
X7.Dump.C74_order_counterexample: propext, Classical.choice, Quot.sound
X7.Dump.C74_pens: propext, Classical.choice, Quot.sound
X7.Dump.C74_points: propext, Classical.choice, Quot.sound
X7.Dump.C74_reread: propext, Classical.choice, Quot.sound
X7.Dump.C74_same: propext, Classical.choice, Quot.sound
X7.Dump.C74_text: propext, Classical.choice, Quot.sound
X7.Dump.C74_transform: propext, Classical.choice, Quot.sound
X7.C75_bbox: propext, Classical.choice, Quot.sound
X7.C75_bbox_union: propext, Classical.choice, Quot.sound
X7.C75_control_point: propext, Classical.choice, Quot.sound
X7.C75_control_point_counterexample: propext, Classical.choice, Quot.sound
X7.C75_coordinates: propext, Classical.choice, Quot.sound
X7.C75_number: propext, Classical.choice, Quot.sound
X7.C75_point: propext, Classical.choice, Quot.sound
X7.C75_twice_counterexample: propext, Classical.choice, Quot.sound
X7.C75_unreadable: propext, Quot.sound
X7.C75_vector_relative: propext, Classical.choice, Quot.sound
X7.C75_vector_relative_counterexample: propext, Classical.choice, Quot.sound
X7.C76_control_points: propext, Classical.choice, Quot.sound
X7.C76_control_points_exact: propext, Classical.choice, Quot.sound
X7.C76_curve: propext, Classical.choice, Quot.sound
X7.C76_points: propext, Classical.choice, Quot.sound
X7.C76_round: propext, Classical.choice, Quot.sound
X7.C76_transitive_counterexample: propext, Classical.choice, Quot.sound
X7.C76_vectors: propext, Classical.choice, Quot.sound
X7.Elem.C77_elem: propext, Classical.choice, Quot.sound
X7.Bzi.C77_found: propext, Classical.choice, Quot.sound
X7.Bzi.C77_intersect: propext, Classical.choice, Quot.sound
X7.Bzi.C77_no_error: propext, Classical.choice, Quot.sound
X7.Elem.C77_open_counterexample: propext, Classical.choice, Quot.sound
X7.Bzi.C77_same_points: propext, Classical.choice, Quot.sound
X7.Bzi.C77_segments: propext, Classical.choice, Quot.sound
X7.Iter.C78_break_counterexample: propext, Classical.choice, Quot.sound
X7.Iter.C78_closed: propext, Classical.choice, Quot.sound
X7.Iter.C78_group_drop: propext, Classical.choice, Quot.sound
X7.Iter.C78_holes_drop: propext, Classical.choice, Quot.sound
X7.Iter.C78_iter: propext, Classical.choice, Quot.sound
X7.Iter.C78_nested: propext, Classical.choice, Quot.sound
X7.Iter.C78_schedule: propext, Classical.choice, Quot.sound
X7.Iter.C78_shared_counterexample: propext, Classical.choice, Quot.sound
X7.Iter.C78_transformed: propext, Classical.choice, Quot.sound
X7.Iter.C78_transformed_drop: propext, Classical.choice, Quot.sound
X7.Bzi.C79_argument_counterexample: propext, Classical.choice, Quot.sound
X7.Bzi.C79_elem: propext, Classical.choice, Quot.sound
X7.Bzi.C79_frame: propext, Classical.choice, Quot.sound
X7.Bzi.C79_result: propext, Classical.choice, Quot.sound
X7.Bzi.C79_shorter: propext, Classical.choice, Quot.sound
X7.VF.C80_copy: propext, Classical.choice, Quot.sound
X7.VF.C80_copy_independent: propext, Classical.choice, Quot.sound
X7.VF.C80_current: propext, Classical.choice, Quot.sound
X7.VF.C80_eq_counterexample: propext, Classical.choice, Quot.sound
X7.VF.C80_eq_equivalence: propext, Classical.choice, Quot.sound
X7.VF.C80_eq_iff: propext, Classical.choice, Quot.sound
X7.VF.C80_eq_lookup: propext, Classical.choice, Quot.sound
X7.VF.C80_first: propext, Classical.choice, Quot.sound
X7.VF.C80_first_copies: propext, Classical.choice, Quot.sound
X7.VF.C80_frame: propext, Classical.choice, Quot.sound
X7.VF.C80_lookup_pure: propext, Classical.choice, Quot.sound
X7.VF.C80_stale_counterexample: propext, Classical.choice, Quot.sound
X7.VF.C80_uniform: propext, Classical.choice, Quot.sound
X7.C81_box: propext, Classical.choice, Quot.sound
X7.C81_drawn: propext, Classical.choice, Quot.sound
X7.C81_ellipse: propext, Classical.choice, Quot.sound
X7.C81_error: propext, Classical.choice, Quot.sound
X7.EH.C81_frame: propext, Classical.choice, Quot.sound
X7.C81_last: propext, Classical.choice, Quot.sound
X7.EH.C81_object_error: propext, Classical.choice, Quot.sound
X7.C81_own_ellipse: propext, Classical.choice, Quot.sound
X7.C81_own_rectangle_counterexample: propext, Classical.choice, Quot.sound
X7.C81_rectangle: propext, Classical.choice, Quot.sound
X7.C81_stretch_exists: propext, Classical.choice, Quot.sound
X7.C81_total: propext, Classical.choice, Quot.sound
X7.EH.C81_undo: propext, Classical.choice, Quot.sound
X7.EH.C81_value: propext, Classical.choice, Quot.sound
X7.Gif.C82_alpha: propext, Quot.sound
X7.Gif.C82_duration: propext, Classical.choice, Quot.sound
X7.Gif.C82_empty: none
X7.Gif.C82_fast_counterexample: propext, Classical.choice, Quot.sound
X7.Gif.C82_frame_by_frame: propext, Classical.choice, Quot.sound
X7.Gif.C82_frames: propext, Classical.choice, Quot.sound
X7.Gif.C82_frames_cropped: propext, Classical.choice, Quot.sound
X7.Gif.C82_narrow_counterexample: propext, Classical.choice, Quot.sound
X7.Gif.C82_palette: propext, Classical.choice, Quot.sound
X7.Gif.C82_palette_all: propext, Classical.choice, Quot.sound
X7.Gif.C82_palette_order: propext, Classical.choice, Quot.sound
X7.SA.C83_animate: propext, Classical.choice, Quot.sound
X7.SA.C83_drawn: propext, Classical.choice, Quot.sound
X7.SA.C83_flat: propext, Classical.choice, Quot.sound
X7.SA.C83_grid_counterexample: propext, Classical.choice, Quot.sound
X7.SA.C83_images: propext, Classical.choice, Quot.sound
X7.SA.C83_polygon_empty: propext, Classical.choice, Quot.sound
X7.SA.C83_set_matrix: propext, Classical.choice, Quot.sound
X7.SA.C83_set_matrix_none: propext, Classical.choice, Quot.sound
X7.SA.C83_space: propext, Classical.choice, Quot.sound
X7.SA.C83_space_counterexample: propext, Classical.choice, Quot.sound
X7.SA.C83_symmetric: propext, Classical.choice, Quot.sound
X7.Dump.C84_empty: propext, Classical.choice, Quot.sound
X7.Dump.C84_layout: propext, Classical.choice, Quot.sound
X7.Dump.C84_layout_elem: propext, Classical.choice, Quot.sound
X7.Dump.C84_methods: propext, Classical.choice, Quot.sound
X7.Dump.C84_methods_counterexample: propext, Classical.choice, Quot.sound
X7.Dump.C84_none: propext, Classical.choice, Quot.sound
X7.Dump.C84_roundtrip: propext, Classical.choice, Quot.sound
X7.C85_center_inside: propext, Classical.choice, Quot.sound
X7.C85_exact_model: propext, Classical.choice, Quot.sound
X7.C85_expand_grows: propext, Classical.choice, Quot.sound
X7.C85_expand_shrinks: propext, Classical.choice, Quot.sound
X7.C85_mid_between: propext, Classical.choice, Quot.sound
X7.C85_size: propext, Classical.choice, Quot.sound
X7.C85_transformed_encloses: propext, Classical.choice, Quot.sound
X7.C85_transformed_exact_counterexample: propext, Classical.choice, Quot.sound
X7.C85_transformed_exact_image: propext, Classical.choice, Quot.sound
X7.C86_closes: propext, Classical.choice, Quot.sound
X7.C86_in_box: propext, Classical.choice, Quot.sound
X7.C86_in_box_counterexample: propext, Classical.choice, Quot.sound
X7.C86_length: propext, Classical.choice, Quot.sound
X7.C86_passes_centres: propext, Classical.choice, Quot.sound
X7.C86_path: propext, Classical.choice, Quot.sound
X7.C86_samples: propext, Classical.choice, Quot.sound
X7.C86_split: propext, Classical.choice, Quot.sound
X7.C86_split_inside: propext, Classical.choice, Quot.sound
X7.C86_split_inside_counterexample: propext, Classical.choice, Quot.sound
X7.C87_area: propext, Classical.choice, Quot.sound
X7.Fl.C87_area_compensated: propext, Classical.choice, Quot.sound
X7.C87_area_exact: propext, Classical.choice, Quot.sound
X7.Fl.C87_area_python: propext, Classical.choice, Quot.sound
X7.C87_difference_sign: propext, Classical.choice, Quot.sound
X7.C87_exact_model: propext, Classical.choice, Quot.sound
X7.C87_first_call: propext, Classical.choice, Quot.sound
X7.C87_history: propext, Classical.choice, Quot.sound
X7.C87_last_row: propext, Classical.choice, Quot.sound
X7.C87_products: propext, Classical.choice, Quot.sound
X7.C87_products_near: propext, Classical.choice, Quot.sound
X7.C87_relative: propext, Classical.choice, Quot.sound
X7.C87_relative_counterexample: propext, Classical.choice, Quot.sound
X7.C87_rotate: propext, Classical.choice, Quot.sound
X7.C87_simple_exact: propext, Classical.choice, Quot.sound
X7.Fl.C87_sum_compensated: propext, Classical.choice, Quot.sound
X7.C87_unit: propext, Classical.choice, Quot.sound
X7.C88_build_times: propext, Classical.choice, Quot.sound
X7.C88_circular: propext, Classical.choice, Quot.sound
X7.C88_exact_model: propext, Classical.choice, Quot.sound
X7.C88_frame_times: propext, Classical.choice, Quot.sound
X7.C88_interpolate: propext, Classical.choice, Quot.sound
X7.C88_last_frame_counterexample: propext, Classical.choice, Quot.sound
X7.C88_linear: propext, Classical.choice, Quot.sound
X7.C88_linear_counterexample: propext, Classical.choice, Quot.sound
X7.C88_morph: propext, Classical.choice, Quot.sound
X7.C88_morph_end_counterexample: propext, Classical.choice, Quot.sound
X7.C88_multi: propext, Classical.choice, Quot.sound
X7.C88_ramp: propext, Classical.choice, Quot.sound
X7.C88_sinusoidal: propext, Classical.choice, Quot.sound
X7.C89_assertion_counterexample: propext, Classical.choice, Quot.sound
X7.C89_closest: propext, Classical.choice, Quot.sound
X7.C89_cross_sign: propext, Classical.choice, Quot.sound
X7.C89_crossing_missed_counterexample: propext, Classical.choice, Quot.sound
X7.C89_exact_model: propext, Classical.choice, Quot.sound
X7.C89_exceptions: propext, Classical.choice, Quot.sound
X7.C89_from_pts: propext, Classical.choice, Quot.sound
X7.C89_from_pts_counterexample: propext, Classical.choice, Quot.sound
X7.C89_intersection_near: propext, Classical.choice, Quot.sound
X7.C89_parallel: propext, Classical.choice, Quot.sound
X7.C89_parallel_counterexample: propext, Classical.choice, Quot.sound
X7.C89_points_in_box: propext, Classical.choice, Quot.sound
X7.C89_segment_sound: propext, Classical.choice, Quot.sound
X7.C89_segment_symm: propext, Classical.choice, Quot.sound
X7.C89_whole_crossing: propext, Classical.choice, Quot.sound
X7.Bzi.C90_add_edge: propext, Classical.choice, Quot.sound
X7.Bzi.C90_any_edge: propext, Classical.choice, Quot.sound
X7.Bzi.C90_exceptions: propext, Classical.choice, Quot.sound
X7.Bzi.C90_history: propext, Classical.choice, Quot.sound
X7.Bzi.C90_kept: propext, Classical.choice, Quot.sound
X7.Bzi.C90_missing_edge_counterexample: propext, Classical.choice, Quot.sound
X7.Bzi.C90_same_graph: propext, Classical.choice, Quot.sound
X7.Bzi.C90_self_valid: propext, Classical.choice, Quot.sound
X7.Bzi.C90_validate: propext, Classical.choice, Quot.sound
X7.Pix.C91_background: propext, Classical.choice, Quot.sound
X7.Pix.C91_composed: propext, Classical.choice, Quot.sound
X7.Pix.C91_drawn: propext, Classical.choice, Quot.sound
X7.Pix.C91_image: propext, Classical.choice, Quot.sound
X7.Pix.C91_over: propext, Classical.choice, Quot.sound
X7.Pix.C91_over_between: propext, Classical.choice, Quot.sound
X7.Pix.C91_shadow_color: propext, Classical.choice, Quot.sound
X7.Pix.C91_shadow_counterexample: propext, Classical.choice, Quot.sound
X7.Pix.C91_shadow_empty: propext, Classical.choice, Quot.sound
X7.Pix.C91_shadow_plain: propext, Classical.choice, Quot.sound
X7.Pix.C91_shadow_reach: propext, Classical.choice, Quot.sound
X7.Pix.C91_shadow_wraps: propext, Classical.choice, Quot.sound
X7.Trans.C92_alpha_counterexample: propext
X7.Trans.C92_alpha_ignored: propext, Quot.sound
X7.Trans.C92_corner: propext
X7.Trans.C92_mode: propext
X7.Trans.C92_palette_counterexample: propext, Classical.choice, Quot.sound
X7.Trans.C92_palette_empty: propext, Quot.sound
X7.Trans.C92_palette_image: propext, Classical.choice, Quot.sound
X7.Trans.C92_two_colors: propext, Classical.choice, Quot.sound
X7.Trans.C92_with_palette: propext
X7.TM.C93_almost_equal: propext, Classical.choice, Quot.sound
X7.TM.C93_control_point_counterexample: propext, Classical.choice, Quot.sound
X7.TM.C93_explain: propext, Classical.choice, Quot.sound
X7.TM.C93_plot_counterexample: propext, Classical.choice, Quot.sound
X7.TM.C93_plot_exception: propext, Classical.choice, Quot.sound
X7.TM.C93_plot_restores: propext, Classical.choice, Quot.sound
X7.TM.C93_tolerance_counterexample: propext, Classical.choice, Quot.sound
X7.BoxObj.C94_atomic: propext, Quot.sound
X7.BoxObj.C94_copy_counterexample: propext, Classical.choice, Quot.sound
X7.BoxObj.C94_equality: propext
X7.BoxObj.C94_frame: propext, Quot.sound
X7.BoxObj.C94_half_filled_counterexample: propext, Classical.choice, Quot.sound
X7.BoxObj.C94_history: propext, Classical.choice, Quot.sound
X7.BoxObj.C94_items: propext, Classical.choice, Quot.sound
X7.BoxObj.C94_measures: propext, Quot.sound
X7.BoxObj.C94_methods: propext
X7.BoxObj.C94_new_box: propext, Classical.choice, Quot.sound
X7.BoxObj.C94_queries: propext, Classical.choice, Quot.sound
X7.BoxObj.C94_rebuild: propext, Quot.sound
X7.BoxObj.C94_tuple_counterexample: propext
X7.BoxObj.C94_whole: propext, Classical.choice, Quot.sound
X7.LH.C95_alias_counterexample: propext, Classical.choice, Quot.sound
X7.LH.C95_end_counterexample: propext, Classical.choice, Quot.sound
X7.LH.C95_equal: propext, Classical.choice, Quot.sound
X7.LH.C95_equal_counterexample: propext, Classical.choice, Quot.sound
X7.LH.C95_follows: propext, Classical.choice, Quot.sound
X7.LH.C95_frame: propext, Classical.choice, Quot.sound
X7.LH.C95_points: propext, Classical.choice, Quot.sound
X7.LH.C95_reads: propext, Classical.choice, Quot.sound
X7.LH.C95_shift: propext, Classical.choice, Quot.sound
X7.AR.C96_added: propext, Classical.choice, Quot.sound
X7.AR.C96_base_generic_errors: propext, Classical.choice, Quot.sound
X7.AR.C96_build: propext, Classical.choice, Quot.sound
X7.AR.C96_failure: propext, Classical.choice, Quot.sound
X7.AR.C96_generic: propext, Classical.choice, Quot.sound
X7.AR.C96_generic_counterexample: propext, Classical.choice, Quot.sound
X7.AR.C96_images: propext, Classical.choice, Quot.sound
X7.AR.C96_new_builder: propext, Classical.choice, Quot.sound
X7.AR.C96_no_file_counterexample: propext, Classical.choice, Quot.sound
X7.AR.C96_no_steps: propext, Classical.choice, Quot.sound
X7.AR.C96_orig_counterexample: propext, Classical.choice, Quot.sound
X7.AR.C96_reachable: propext, Classical.choice, Quot.sound
X7.AR.C96_run: propext, Classical.choice, Quot.sound
X7.AR.C96_save: propext, Classical.choice, Quot.sound
X7.AR.C96_shown_unique: propext, Classical.choice, Quot.sound
X7.AR.C96_simple: propext, Classical.choice, Quot.sound
X7.AR.C96_simple_counterexample: propext, Classical.choice, Quot.sound
X7.AR.C96_update: propext, Classical.choice, Quot.sound
X7.NB.C97_add: propext
X7.NB.C97_add_counterexample: propext
X7.NB.C97_add_none: propext
X7.NB.C97_corner_counterexample: propext
X7.NB.C97_eq_self: propext
X7.NB.C97_grow: propext, Quot.sound
X7.NB.C97_inter: propext, Classical.choice, Quot.sound
X7.NB.C97_nan_box: propext
X7.NB.C97_nan_point: propext
X7.NB.C97_no_nan: propext
X7.NB.C97_order_counterexample: propext
X7.NB.C97_overlaps: propext, Quot.sound
X7.NB.C97_overlaps_counterexample: propext, Classical.choice, Quot.sound
X7.NB.C97_paired: propext, Classical.choice, Quot.sound
X7.Fmt.C98_area: propext, Classical.choice, Quot.sound
X7.Fmt.C98_area_nan_counterexample: propext, Classical.choice, Quot.sound
X7.Fmt.C98_area_zero_counterexample: propext, Classical.choice, Quot.sound
X7.Fmt.C98_center: propext, Classical.choice, Quot.sound
X7.Fmt.C98_center_counterexample: propext, Classical.choice, Quot.sound
X7.Fmt.C98_expand_counterexample: propext, Classical.choice, Quot.sound
X7.Fmt.C98_expand_grows: propext, Classical.choice, Quot.sound
X7.Fmt.C98_expand_shrinks: propext, Classical.choice, Quot.sound
X7.Fmt.C98_functions: propext, Classical.choice, Quot.sound
X7.Fmt.C98_height: propext, Classical.choice, Quot.sound
X7.Fmt.C98_identity_counterexample: propext, Classical.choice, Quot.sound
X7.Fmt.C98_mid: propext, Classical.choice, Quot.sound
X7.Fmt.C98_monotone: propext, Classical.choice, Quot.sound
X7.Fmt.C98_rounding: propext, Classical.choice, Quot.sound
X7.Fmt.C98_transfer: propext, Classical.choice, Quot.sound
X7.Fmt.C98_transform: propext, Classical.choice, Quot.sound
X7.Fmt.C98_transform_counterexample: propext, Classical.choice, Quot.sound
X7.Fmt.C98_transform_infinite: propext, Classical.choice, Quot.sound
X7.Fmt.C98_transform_nan: propext, Classical.choice, Quot.sound
X7.Fmt.C98_transformed: propext, Classical.choice, Quot.sound
X7.Fmt.C98_width: propext, Classical.choice, Quot.sound
X7.C99_arc: propext, Classical.choice, Quot.sound
X7.C99_arc2p: propext, Classical.choice, Quot.sound
X7.C99_ellipse: propext, Classical.choice, Quot.sound
X7.C99_ellipse_counterexample: propext, Classical.choice, Quot.sound
X7.C99_exact_arc: propext, Classical.choice, Quot.sound
X7.C99_exact_shapes: propext, Classical.choice, Quot.sound
X7.C99_min_rotation: propext, Classical.choice, Quot.sound
X7.C99_min_rotation_counterexample: propext, Classical.choice, Quot.sound
X7.C99_min_rotation_whole: propext, Classical.choice, Quot.sound
X7.C99_rounded_close: propext, Classical.choice, Quot.sound
X7.C99_rounded_rect: propext, Classical.choice, Quot.sound
X7.C99_rounded_rect_counterexample: propext, Classical.choice, Quot.sound
X7.C99_scale_bbox: propext, Classical.choice, Quot.sound
X7.C99_width: propext, Classical.choice, Quot.sound
