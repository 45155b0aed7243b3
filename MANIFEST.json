{
 "claims": [
  {
   "property": "C01",
   "status": "proved",
   "theorems": [
    "X7.C01_add_kinds",
    "X7.C01_add_error",
    "X7.C01_point_plus_point",
    "X7.C01_sub_kinds",
    "X7.C01_values",
    "X7.C01_sub_numbers",
    "X7.C01_add_comm",
    "X7.C01_add_sub_cancel",
    "X7.C01_vec_cancel",
    "X7.C01_point_cancel",
    "X7.C01_chasles",
    "X7.C01_add_assoc",
    "X7.C01_sub_eq_add_neg",
    "X7.C01_vector_space",
    "X7.C01_truediv",
    "X7.C01_mid"
   ],
   "note": "exact arithmetic over any field; Python dispatch modelled with operand tags"
  },
  {
   "property": "C02",
   "status": "proved",
   "theorems": [
    "X7.C02_dot_bilinear",
    "X7.C02_cross_bilinear",
    "X7.C02_lagrange",
    "X7.C02_normal",
    "X7.C02_normal_dot",
    "X7.C02_cross_eq_zero_iff",
    "X7.C02_length",
    "X7.C02_unit"
   ],
   "note": "exact arithmetic; length/unit over the reals"
  },
  {
   "property": "C03",
   "status": "proved",
   "theorems": [
    "X7.C03_rotate_isometry",
    "X7.C03_rotate_add",
    "X7.C03_rotate_360",
    "X7.C03_rotate_sense",
    "X7.C03_polar",
    "X7.C03_angle_rotate"
   ],
   "note": "over the reals with exact trigonometric functions"
  },
  {
   "property": "C04",
   "status": "proved",
   "theorems": [
    "X7.PH.C04_reads",
    "X7.PH.C04_readable",
    "X7.PH.C04_vector_relative",
    "X7.PH.C04_move",
    "X7.PH.C04_fromxy",
    "X7.PH.C04_calc_over_calc_counterexample"
   ],
   "note": "mutable points as a heap; reads of a cyclic relative chain are recursion errors"
  },
  {
   "property": "C05",
   "status": "proved",
   "theorems": [
    "X7.PH.C05_fixed",
    "X7.PH.C05_copy",
    "X7.PH.C05_copy_relative",
    "X7.PH.C05_copy_named_counterexample"
   ],
   "note": "copy of a named point loses the name: counterexample"
  },
  {
   "property": "C06",
   "status": "proved",
   "theorems": [
    "X7.Parse.C06_parse_iff",
    "X7.Parse.C06_otherwise_value_error",
    "X7.Parse.C06_same_values",
    "X7.Parse.C06_idempotent",
    "X7.Parse.C06_append"
   ],
   "note": ""
  },
  {
   "property": "C07",
   "status": "proved",
   "theorems": [
    "X7.C07_rotate",
    "X7.C07_reverse",
    "X7.C07_affine",
    "X7.C07_translate",
    "X7.C07_small",
    "X7.C07_diagonal",
    "X7.C07_triangle",
    "X7.C07_rectangle",
    "X7.C07_ccw_positive"
   ],
   "note": "exact arithmetic over any field"
  },
  {
   "property": "C08",
   "status": "proved",
   "theorems": [
    "X7.BBox.C08_init_norm",
    "X7.BBox.C08_getitem",
    "X7.BBox.C08_setitem",
    "X7.BBox.C08_init_forms",
    "X7.BBox.C08_reach_norm",
    "X7.BBox.C08_sort_repairs",
    "X7.BBox.C08_init_corners",
    "X7.BBox.C08_expand_norm",
    "X7.BBox.C08_reach_norm_expand"
   ],
   "note": "order part over any linear order; expand over ordered fields; item assignment on BBox(None) not represented"
  },
  {
   "property": "C09",
   "status": "proved",
   "theorems": [
    "X7.BBox.C09_add_lub",
    "X7.BBox.C09_add_comm",
    "X7.BBox.C09_add_assoc",
    "X7.BBox.C09_add_idem",
    "X7.BBox.C09_add_none",
    "X7.BBox.C09_sum_lub",
    "X7.BBox.C09_sum_order"
   ],
   "note": "any linear order"
  },
  {
   "property": "C10",
   "status": "proved",
   "theorems": [
    "X7.BBox.C10_grow_least",
    "X7.BBox.C10_grow_holds",
    "X7.BBox.C10_grow_none_iff",
    "X7.BBox.C10_grow_order",
    "X7.BBox.C10_grow_mono"
   ],
   "note": "any linear order"
  },
  {
   "property": "C11",
   "status": "proved",
   "theorems": [
    "X7.BBox.C11_region_inter",
    "X7.BBox.C11_none_iff_disjoint",
    "X7.BBox.C11_inter_comm",
    "X7.BBox.C11_inter_assoc",
    "X7.BBox.C11_inter_idem",
    "X7.BBox.C11_inter_none",
    "X7.BBox.C11_absorb"
   ],
   "note": "any linear order"
  },
  {
   "property": "C12",
   "status": "proved",
   "theorems": [
    "X7.BBox.C12_contains_iff",
    "X7.BBox.C12_contains_equiv",
    "X7.BBox.C12_partial_order"
   ],
   "note": "any linear order; documentation says False for none boxes, code raises ValueError"
  },
  {
   "property": "C13",
   "status": "proved",
   "theorems": [
    "X7.BBox.C13_symm",
    "X7.BBox.C13_overlaps_iff_fat",
    "X7.BBox.C13_overlaps_iff_common_interior",
    "X7.BBox.C13_trichotomy",
    "X7.BBox.C13_side_touches",
    "X7.BBox.C13_touches",
    "X7.BBox.C13_area",
    "X7.BBox.C13_touches_area",
    "X7.BBox.C13_overlaps_area",
    "X7.BBox.C13_touches_exact"
   ],
   "note": "any linear order; common interior point needs a dense order"
  },
  {
   "property": "C14",
   "status": "proved",
   "theorems": [
    "X7.BBox.C14_contains_corners_counterexample",
    "X7.BBox.C14_contains_corners_closed",
    "X7.BBox.C14_touches_corners_counterexample",
    "X7.BBox.C14_touches_not_contains_counterexample",
    "X7.BBox.C14_touches_not_contains_fat",
    "X7.BBox.C14_overlaps_corner_counterexample",
    "X7.BBox.C14_overlaps_degenerate_counterexample",
    "X7.BBox.C14_none_behaviour",
    "X7.BBox.C14_point_tests"
   ],
   "note": "each documented claim decided: counterexamples for the false ones, repaired versions proved"
  },
  {
   "property": "C15",
   "status": "proved",
   "theorems": [
    "X7.BBox.C15_expand_size",
    "X7.BBox.C15_expand_mono",
    "X7.BBox.C15_expand_add",
    "X7.BBox.C15_expand_add_counterexample"
   ],
   "note": "exact arithmetic over ordered fields"
  },
  {
   "property": "C16",
   "status": "proved",
   "theorems": [
    "X7.BBox.C16_transformed_tight",
    "X7.BBox.C16_transformed_id"
   ],
   "note": "exact arithmetic over ordered fields"
  },
  {
   "property": "C17",
   "status": "proved",
   "theorems": [
    "X7.Line.C17_raises_iff",
    "X7.Line.C17_nearest"
   ],
   "note": "exact arithmetic; over ordered fields, distances over the reals"
  },
  {
   "property": "C18",
   "status": "proved",
   "theorems": [
    "X7.Line.C18_construction",
    "X7.Line.C18_raises_iff",
    "X7.Line.C18_unique_common_point",
    "X7.Line.C18_symm"
   ],
   "note": "exact arithmetic over any field"
  },
  {
   "property": "C19",
   "status": "proved",
   "theorems": [
    "X7.Line.C19_sound",
    "X7.Line.C19_exceptions"
   ],
   "note": "exact arithmetic over ordered fields"
  },
  {
   "property": "C20",
   "status": "proved",
   "theorems": [
    "X7.Line.C20_proper_crossing_found",
    "X7.Line.C20_found_iff_boxes_overlap",
    "X7.Line.C20_touching_counterexample",
    "X7.Line.C20_collinear_counterexample"
   ],
   "note": "proper crossings; touching and collinear cases refuted by counterexample theorems"
  },
  {
   "property": "C21",
   "status": "proved",
   "theorems": [
    "X7.C21_history",
    "X7.C21_history_from",
    "X7.C21_copy"
   ],
   "note": "all histories of calls; matrices passed in from other transforms are assumed affine, which the same theorem establishes for them"
  },
  {
   "property": "C22",
   "status": "proved",
   "theorems": [
    "X7.C22_exact",
    "X7.C22_roundtrip_iff",
    "X7.C22_roundtrip",
    "X7.C22_rotate_about_counterexample"
   ],
   "note": "C22_exact and C22_roundtrip_iff: all histories. C22_rotate_about_counterexample: the plain claim is false."
  },
  {
   "property": "C23",
   "status": "proved",
   "theorems": [
    "X7.C23_with_restores",
    "X7.C23_push_pop_restores",
    "X7.C23_pop_empty",
    "X7.C23_depth",
    "X7.C23_with_header_counterexample"
   ],
   "note": "programs with nested with-blocks, exceptions and try; header calls that raise leak the pushed matrix (refuted by counterexample)"
  },
  {
   "property": "C24",
   "status": "proved",
   "theorems": [
    "X7.C24_scale_bbox",
    "X7.C24_scale_bbox_keep_aspect",
    "X7.C24_zero_size",
    "X7.C24_none"
   ],
   "note": "exact arithmetic over the reals"
  },
  {
   "property": "C25",
   "status": "proved",
   "theorems": [
    "X7.C25_isometry",
    "X7.C25_additive",
    "X7.C25_inverse",
    "X7.C25_fixes_centre",
    "X7.C25_sense",
    "X7.C25_rotate_doc_counterexample"
   ],
   "note": "exact trigonometric functions; doc claim of rotate refuted"
  },
  {
   "property": "C26",
   "status": "proved",
   "theorems": [
    "X7.C26_simplify",
    "X7.C26_simplify_exact",
    "X7.C26_is_simple",
    "X7.C26_parts"
   ],
   "note": "exact arithmetic; threshold 1e-16 as a real number"
  },
  {
   "property": "C27",
   "status": "proved",
   "theorems": [
    "X7.C27_width",
    "X7.C27_canvas_fit",
    "X7.C27_scale_vals",
    "X7.C27_width_linear",
    "X7.C27_width_similarity"
   ],
   "note": "exact arithmetic"
  },
  {
   "property": "C28",
   "status": "proved",
   "theorems": [
    "X7.C28_transform_pts",
    "X7.C28_transform_pts_plain",
    "X7.C28_flatten",
    "X7.C28_untransform_pts"
   ],
   "note": "exact arithmetic"
  },
  {
   "property": "C29",
   "status": "proved",
   "theorems": [
    "X7.C29_split_traces",
    "X7.C29_split_joint",
    "X7.C29_split_ends",
    "X7.C29_split_kind"
   ],
   "note": "exact arithmetic"
  },
  {
   "property": "C30",
   "status": "proved",
   "theorems": [
    "X7.C30_bez",
    "X7.C30_bez_zero"
   ],
   "note": "exact arithmetic"
  },
  {
   "property": "C31",
   "status": "proved",
   "theorems": [
    "X7.C31_length",
    "X7.C31_points",
    "X7.C31_closed_ends",
    "X7.C31_empty"
   ],
   "note": "exact arithmetic; transform given as a point map"
  },
  {
   "property": "C32",
   "status": "proved",
   "theorems": [
    "X7.C32_curve_in_bbox",
    "X7.C32_bbox_total",
    "X7.C32_bbox_least"
   ],
   "note": "exact arithmetic"
  },
  {
   "property": "C33",
   "status": "proved",
   "theorems": [
    "X7.C33_involution",
    "X7.C33_trace",
    "X7.C33_open",
    "X7.C33_closed"
   ],
   "note": ""
  },
  {
   "property": "C34",
   "status": "proved",
   "theorems": [
    "X7.C34_trace",
    "X7.C34_compose",
    "X7.C34_identity_kind",
    "X7.C34_inverse",
    "X7.C34_handles"
   ],
   "note": "exact arithmetic"
  },
  {
   "property": "C35",
   "status": "proved",
   "theorems": [
    "X7.C35_centre_kind",
    "X7.C35_very_smooth",
    "X7.C35_smooth",
    "X7.C35_smooth_zero_division",
    "X7.C35_other"
   ],
   "note": "exact real arithmetic; an arbitrary point map stands for the transformer"
  },
  {
   "property": "C36",
   "status": "proved",
   "theorems": [
    "X7.C36_add_one_closed",
    "X7.C36_empty",
    "X7.C36_two_points",
    "X7.C36_open_counterexample",
    "X7.C36_one_point_counterexample"
   ],
   "note": "exact real arithmetic; refuted for open curves and one-point curves"
  },
  {
   "property": "C37",
   "status": "proved",
   "theorems": [
    "X7.C37_mitre",
    "X7.C37_limited",
    "X7.C37_straight",
    "X7.C37_zero_handle",
    "X7.C37_bounded",
    "X7.C37_limit_sign_counterexample"
   ],
   "note": "exact real arithmetic; thresholds 1e-10 and 100 as real numbers"
  },
  {
   "property": "C38",
   "status": "proved",
   "theorems": [
    "X7.Elem.C38_caller_matrix",
    "X7.Elem.C38_rect",
    "X7.Elem.C38_ellipse"
   ],
   "note": "entries of the composed matrix are zero or at least 1e-16 (the thresholds of the code); when the axes are exchanged the corners come in the opposite order"
  },
  {
   "property": "C39",
   "status": "proved",
   "theorems": [
    "X7.Elem.C39_bbox_context",
    "X7.Elem.C39_bbox_encloses",
    "X7.Elem.C39_rect_tight",
    "X7.Elem.C39_outside_transform_counterexample",
    "X7.Elem.C39_no_holes_counterexample",
    "X7.Elem.C39_group_least",
    "X7.Elem.C39_bbox_least"
   ],
   "note": "outside elements of shapes with holes without own transform, holes present (counterexamples proved otherwise)"
  },
  {
   "property": "C40",
   "status": "proved",
   "theorems": [
    "X7.Elem.C40_paths",
    "X7.Elem.C40_control_paths",
    "X7.Elem.C40_group_loop",
    "X7.Elem.C40_matrix_only"
   ],
   "note": ""
  },
  {
   "property": "C41",
   "status": "proved",
   "theorems": [
    "X7.Elem.C41_leaves",
    "X7.Elem.C41_shape",
    "X7.Elem.C41_transform_curve",
    "X7.Elem.C41_transform_group",
    "X7.Elem.C41_copy",
    "X7.Elem.C41_transform_holes"
   ],
   "note": ""
  },
  {
   "property": "C42",
   "status": "proved",
   "theorems": [
    "X7.GroupNames.C42_search_ends",
    "X7.GroupNames.C42_add_fails",
    "X7.GroupNames.C42_add_ok",
    "X7.GroupNames.C42_fixname",
    "X7.GroupNames.C42_history",
    "X7.GroupNames.C42_own_names",
    "X7.GroupNames.C42_shared_counterexample",
    "X7.GroupNames.C42_constructor"
   ],
   "note": "own name only while no element object is added twice (counterexample proved)"
  },
  {
   "property": "C43",
   "status": "proved",
   "theorems": [
    "X7.Elem.C43_iter",
    "X7.Elem.C43_names",
    "X7.Elem.C43_lookup",
    "X7.Elem.C43_unknown",
    "X7.Elem.C43_trailing_dot",
    "X7.Elem.C43_holes_lookup",
    "X7.Elem.C43_holes_counterexample",
    "X7.Elem.C43_shared_matrix_counterexample"
   ],
   "note": "names and lookup for trees of groups and simple shapes with non-empty keys; parts of shapes with holes cannot be looked up (counterexample proved)"
  },
  {
   "property": "C44",
   "status": "proved",
   "theorems": [
    "X7.Elem.C44_replace",
    "X7.Elem.C44_no_match",
    "X7.Elem.C44_one_match",
    "X7.Elem.C44_two_matches_counterexample",
    "X7.Elem.C44_atomic_counterexample",
    "X7.Elem.C44_order_counterexample",
    "X7.Elem.C44_holes_counterexample"
   ],
   "note": "for trees meeting Replaceable; otherwise counterexamples proved (two matches, name taken, order, holes)"
  },
  {
   "property": "C45",
   "status": "proved",
   "theorems": [
    "X7.EH.C45_copy",
    "X7.EH.C45_copy_independent",
    "X7.EH.C45_copy_transform_counterexample",
    "X7.EH.C45_copy_name_counterexample",
    "X7.EH.C45_restore",
    "X7.EH.C45_undo",
    "X7.EH.C45_group_copy",
    "X7.EH.C45_group_closed_counterexample",
    "X7.EH.C45_group_restore",
    "X7.EH.C45_group_restore_counterexample",
    "X7.EH.C45_holes_copy",
    "X7.EH.C45_holes_restore_counterexample"
   ],
   "note": "false cases are proved as counterexamples and named in the statement"
  },
  {
   "property": "C46",
   "status": "proved",
   "theorems": [
    "X7.Elem.C46_hidden",
    "X7.Elem.C46_group",
    "X7.Elem.C46_holes_filled",
    "X7.Elem.C46_holes_simple",
    "X7.Elem.C46_holes_unfilled",
    "X7.Elem.C46_outside_one_path",
    "X7.Elem.C46_duplicates_counterexample"
   ],
   "note": "the number of outlines of multi-path parts is k*k (counterexample proved)"
  },
  {
   "property": "C47",
   "status": "proved",
   "theorems": [
    "X7.Dump.C47_set_var",
    "X7.Dump.C47_no_vars"
   ],
   "note": ""
  },
  {
   "property": "C48",
   "status": "proved",
   "theorems": [
    "X7.Dump.C48_roundtrip",
    "X7.Dump.C48_roundtrip_exact",
    "X7.Dump.C48_dump_appends",
    "X7.Dump.C48_output_empty",
    "X7.Dump.C48_group_forgets",
    "X7.Dump.C48_group_counterexample",
    "X7.Dump.C48_corner_counterexample",
    "X7.Dump.C48_holes_counterexample"
   ],
   "note": "numbers and strings are tokens: repr of float and str is assumed to read back"
  },
  {
   "property": "C49",
   "status": "proved",
   "theorems": [
    "X7.C49_bbox",
    "X7.C49_inside",
    "X7.C49_symmetric",
    "X7.C49_on_ellipse",
    "X7.C49_deviation"
   ],
   "note": "Box, containment, symmetry, 45 degree points and error bound; exact real arithmetic."
  },
  {
   "property": "C50",
   "status": "proved",
   "theorems": [
    "X7.C50_inside",
    "X7.C50_shape",
    "X7.C50_zero_radius",
    "X7.C50_negative_radius_counterexample"
   ],
   "note": "radius >= 0; a negative radius leaves the rectangle (C50_negative_radius_counterexample)."
  },
  {
   "property": "C51",
   "status": "proved",
   "theorems": [
    "X7.Utils.C51_min_rotation",
    "X7.Utils.C51_unique"
   ],
   "note": ""
  },
  {
   "property": "C52",
   "status": "proved",
   "theorems": [
    "X7.Utils.C52_arc",
    "X7.Utils.C52_on_circle",
    "X7.Utils.C52_ends",
    "X7.Utils.C52_full_turn",
    "X7.Utils.C52_circle"
   ],
   "note": "steps=0 is outside the assumption on t_range"
  },
  {
   "property": "C53",
   "status": "proved",
   "theorems": [
    "X7.Utils.C53_arc2p",
    "X7.Utils.C53_errors",
    "X7.Utils.C53_long_short"
   ],
   "note": ""
  },
  {
   "property": "C54",
   "status": "proved",
   "theorems": [
    "X7.Utils.C54_pointwise",
    "X7.Utils.C54_inverse",
    "X7.Utils.C54_rotate_sense",
    "X7.Utils.C54_tuples_rejected",
    "X7.Utils.C54_wrong_entries",
    "X7.Utils.C54_check",
    "X7.Utils.C54_total"
   ],
   "note": ""
  },
  {
   "property": "C55",
   "status": "proved",
   "theorems": [
    "X7.C55_stroke_width",
    "X7.C55_stroke_width_nonneg",
    "X7.C55_replace_objects",
    "X7.C55_replace_width",
    "X7.C55_replace_fails_iff",
    "X7.C55_pen_replace",
    "X7.C55_replace_width_zero",
    "X7.C55_repr_round_trip",
    "X7.C55_replace_width_all",
    "X7.C55_make",
    "X7.C55_getitem",
    "X7.C55_arguments",
    "X7.C55_pair_counterexample",
    "X7.C55_replace_colors"
   ],
   "note": "exact arithmetic; printed form as constructor arguments, not characters; a tuple of two numbers given as pen is a colour and a width, shown as a counterexample"
  },
  {
   "property": "C56",
   "status": "proved",
   "theorems": [
    "X7.VF.C56_node",
    "X7.VF.C56_bilinear",
    "X7.VF.C56_bounded",
    "X7.VF.C56_linear",
    "X7.VF.C56_affine",
    "X7.VF.C56_transform",
    "X7.VF.C56_transform_pts_counterexample",
    "X7.VF.C56_quiver_counterexample"
   ],
   "note": "lookup at nodes, bilinear inside, bounds, linear, exact on affine fields, transform; transform_pts and plot orientation disproved"
  },
  {
   "property": "C57",
   "status": "proved",
   "theorems": [
    "X7.VF.C57_normalized",
    "X7.VF.C57_normalized_zero",
    "X7.VF.C57_scaled",
    "X7.VF.C57_scaled_lookup",
    "X7.VF.C57_smooth_mean",
    "X7.VF.C57_smooth_bounded",
    "X7.VF.C57_smoothed",
    "X7.VF.C57_window_counterexample"
   ],
   "note": "normalized, scaled, smoothed as weighted mean; smoothing never wipes out a field"
  },
  {
   "property": "C58",
   "status": "proved",
   "theorems": [
    "X7.Anim.C58_holder",
    "X7.Anim.C58_history",
    "X7.Anim.C58_linear",
    "X7.Anim.C58_sinusoidal",
    "X7.Anim.C58_circular",
    "X7.Anim.C58_chained_counterexample"
   ],
   "note": "Holder and history theorems need targets that are not chained on a moved point; C58_chained_counterexample shows why."
  },
  {
   "property": "C59",
   "status": "proved",
   "theorems": [
    "X7.Morph.C59_force",
    "X7.Morph.C59_errors",
    "X7.Morph.C59_update",
    "X7.Morph.C59_hidden",
    "X7.Morph.C59_start",
    "X7.Morph.C59_end",
    "X7.Morph.C59_restore",
    "X7.Morph.C59_restore_counterexample"
   ],
   "note": "Trees as Group.add builds them, without shapes with holes; curves of at least two control points for forcing. restore() loses another curve equal to the morph: C59_restore_counterexample."
  },
  {
   "property": "C60",
   "status": "proved",
   "theorems": [
    "X7.Morph.C60_prepare",
    "X7.Morph.C60_update",
    "X7.Morph.C60_at_step",
    "X7.Morph.C60_hidden_restore",
    "X7.Morph.C60_xform_counterexample",
    "X7.Morph.C60_open_counterexample"
   ],
   "note": "Curves of at least two control points. Rotation to the lower left is wrong for curves with a transform and changes open curves: C60_xform_counterexample, C60_open_counterexample."
  },
  {
   "property": "C61",
   "status": "proved",
   "theorems": [
    "X7.Anim.C61_interpolate",
    "X7.Anim.C61_knots",
    "X7.Anim.C61_bounded",
    "X7.Anim.C61_ramp",
    "X7.Anim.C61_ramp_monotone",
    "X7.Anim.C61_periodic",
    "X7.Anim.C61_offset_counterexample",
    "X7.Anim.C61_sin_cos",
    "X7.Anim.C61_hide_if",
    "X7.Anim.C61_identity_xy",
    "X7.Anim.C61_identity_xy_value",
    "X7.Anim.C61_xy",
    "X7.Anim.C61_sin_and_cos"
   ],
   "note": "The documented phase offset of periodic is false: C61_offset_counterexample."
  },
  {
   "property": "C62",
   "status": "proved",
   "theorems": [
    "X7.Anim.C62_build_all",
    "X7.Anim.C62_times",
    "X7.Anim.C62_simple_counterexample",
    "X7.Anim.C62_simple_zero"
   ],
   "note": "'One image per step' is false for SimpleAnimation: every image is appended twice (C62_simple_counterexample). Drawing is a parameter."
  },
  {
   "property": "C63",
   "status": "proved",
   "theorems": [
    "X7.Drawing.C63_bbox_max_tight",
    "X7.Drawing.C63_bbox_max_algebra",
    "X7.Drawing.C63_bbox_max_none_counterexample",
    "X7.Drawing.C63_max_bbox",
    "X7.Drawing.C63_autocrop",
    "X7.Drawing.C63_autocrop_empty_counterexample",
    "X7.Drawing.C63_scale_unscale",
    "X7.Drawing.C63_crop",
    "X7.Drawing.C63_crop_positive",
    "X7.Drawing.C63_crop_counterexample",
    "X7.Drawing.C63_shadow_restores",
    "X7.Drawing.C63_shadow_image",
    "X7.Drawing.C63_image",
    "X7.Drawing.C63_shadow_again",
    "X7.Drawing.C63_shadow_nested_counterexample"
   ],
   "note": "Text corrected to what the code does; the false parts are counterexample theorems."
  },
  {
   "property": "C64",
   "status": "proved",
   "theorems": [
    "X7.Drawing.C64_entries",
    "X7.Drawing.C64_alpha",
    "X7.Drawing.C64_idempotent",
    "X7.Drawing.C64_bytes",
    "X7.Drawing.C64_errors"
   ],
   "note": "Palette as a list of bytes."
  },
  {
   "property": "C65",
   "status": "proved",
   "theorems": [
    "X7.Bzi.C65_result",
    "X7.Bzi.C65_result_ok",
    "X7.Bzi.C65_none",
    "X7.Bzi.C65_same_points",
    "X7.Bzi.C65_walk",
    "X7.Bzi.C65_walk_alternating",
    "X7.Bzi.C65_walk_counterexample"
   ],
   "note": "Intersections are an input of the model (external library). The walk is proved for every graph; the AttributeError on equal parity is shown by a counterexample. Writes to control points shared with the argument are not modelled."
  },
  {
   "property": "C66",
   "status": "proved",
   "theorems": [
    "X7.C66_tables_agree",
    "X7.C66_nocolor_counterexample"
   ],
   "note": ""
  },
  {
   "property": "C67",
   "status": "proved",
   "theorems": [
    "X7.Elem.C67_rounded",
    "X7.Elem.C67_rounded_exchange",
    "X7.Elem.C67_rounded_counterexample"
   ],
   "note": "C67_rounded (same order), C67_rounded_exchange (axes exchanged), C67_rounded_counterexample (different scales). Entries of the linear part below 1e-16 other than 0 are excluded (Clean): simplify snaps them to zero."
  },
  {
   "property": "C68",
   "status": "proved",
   "theorems": [
    "X7.Utils.C68_markers"
   ],
   "note": ""
  },
  {
   "property": "C69",
   "status": "proved",
   "theorems": [
    "X7.Elem.C69_keeps",
    "X7.Elem.C69_ops",
    "X7.Elem.C69_determined",
    "X7.Elem.C69_ops_cps",
    "X7.Elem.C69_hidden",
    "X7.Elem.C69_fail",
    "X7.Elem.C69_width",
    "X7.Elem.C69_shadow",
    "X7.Elem.C69_bbox",
    "X7.Elem.C69_group",
    "X7.Elem.C69_holes",
    "X7.Elem.C69_control_paths",
    "X7.Elem.C69_marker_corners_counterexample",
    "X7.Elem.C69_group_width_counterexample",
    "X7.Elem.C69_empty_counterexample",
    "X7.Elem.C69_holes_lines_counterexample"
   ],
   "note": "The canvas is the list of operations issued (polygon, line, ellipse, rectangle); rasterisation is not modelled. C69_ops gives the operations, C69_determined that there is one answer; the false parts are counterexample theorems."
  },
  {
   "property": "C70",
   "status": "proved",
   "theorems": [
    "X7.Elem.C70_as_curves",
    "X7.Elem.C70_fails",
    "X7.Elem.C70_drawn",
    "X7.Elem.C70_hidden_counterexample",
    "X7.Elem.C70_holes_counterexample"
   ],
   "note": "Outlines are sets of points (Spec/Flatten). Hidden groups and filled holes: counterexample theorems."
  },
  {
   "property": "C71",
   "status": "proved",
   "theorems": [
    "X7.Elem.C71_transform_caller",
    "X7.Elem.C71_group",
    "X7.Elem.C71_holes",
    "X7.Elem.C71_names",
    "X7.Elem.C71_drawn",
    "X7.Elem.C71_hidden_counterexample"
   ],
   "note": "The generator is run to its end by a consumer that does not touch the matrix. Yielded elements are those of transform (C38, C41, C67 say how they draw); C71_drawn for groups of curves and groups."
  },
  {
   "property": "C72",
   "status": "proved",
   "theorems": [
    "X7.Build.C72_history",
    "X7.Build.C72_fails",
    "X7.Build.C72_elem",
    "X7.Build.C72_defaults",
    "X7.Build.C72_add",
    "X7.Build.C72_group",
    "X7.Build.C72_found",
    "X7.Build.C72_nested",
    "X7.Build.C72_points",
    "X7.Build.C72_rotate",
    "X7.Build.C72_rotate_drawn",
    "X7.Build.C72_hide_counterexample"
   ],
   "note": "For every program from the model of one builder and nested ones. hide() has no effect on drawing: C72_hide_counterexample. The element objects passed to add() are new ones; adding one object twice is C42_shared_counterexample."
  },
  {
   "property": "C73",
   "status": "proved",
   "theorems": [
    "X7.Elem.C73_result",
    "X7.Elem.C73_ring",
    "X7.Elem.C73_parallel",
    "X7.Elem.C73_zero",
    "X7.Elem.C73_direction",
    "X7.Elem.C73_start",
    "X7.Elem.C73_rigid",
    "X7.Elem.C73_corners_counterexample"
   ],
   "note": "On control polygons: C73_ring says what each vertex becomes, C73_parallel that sides between good corners are parallel at the offset. C73_corners_counterexample: points without handles do not move."
  },
  {
   "property": "C74",
   "status": "proved",
   "theorems": [
    "X7.Dump.C74_points",
    "X7.Dump.C74_pens",
    "X7.Dump.C74_same",
    "X7.Dump.C74_equivalence",
    "X7.Dump.C74_no_groups",
    "X7.Dump.C74_drawn",
    "X7.Dump.C74_bbox",
    "X7.Dump.C74_transform",
    "X7.Dump.C74_copy",
    "X7.Dump.C74_dump",
    "X7.Dump.C74_reread",
    "X7.Dump.C74_text",
    "X7.Dump.C74_order_counterexample",
    "X7.Dump.C74_dump_counterexample"
   ],
   "note": "C74_drawn needs that holes are not groups; C74_order_counterexample shows that the order of paths may differ; C74_dump needs that outsides are not groups, C74_dump_counterexample shows why."
  },
  {
   "property": "C75",
   "status": "proved",
   "theorems": [
    "X7.C75_number",
    "X7.C75_coordinates",
    "X7.C75_twice_counterexample",
    "X7.C75_point",
    "X7.C75_vector_relative",
    "X7.C75_unreadable",
    "X7.C75_vector_relative_counterexample",
    "X7.C75_control_point",
    "X7.C75_control_point_counterexample",
    "X7.C75_bbox",
    "X7.C75_bbox_union"
   ],
   "note": "Exact numbers; the built-in round is assumed to be round-half-even to n decimals (C75_number says what that means). Where a stronger claim fails there are counterexamples."
  },
  {
   "property": "C76",
   "status": "proved",
   "theorems": [
    "X7.C76_points",
    "X7.C76_vectors",
    "X7.C76_control_points",
    "X7.C76_transitive_counterexample",
    "X7.C76_round",
    "X7.C76_curve",
    "X7.C76_control_points_exact"
   ],
   "note": "Over the reals; the curves are those of C31."
  },
  {
   "property": "C77",
   "status": "proved",
   "theorems": [
    "X7.Bzi.C77_intersect",
    "X7.Bzi.C77_found",
    "X7.Bzi.C77_segments",
    "X7.Bzi.C77_same_points",
    "X7.Bzi.C77_no_error",
    "X7.Elem.C77_elem",
    "X7.Elem.C77_open_counterexample"
   ],
   "note": "The intersection finder of the package bezier is a parameter; its correctness is assumed. The claim for open curves is refuted by C77_open_counterexample."
  },
  {
   "property": "C78",
   "status": "proved",
   "theorems": [
    "X7.Iter.C78_schedule",
    "X7.Iter.C78_iter",
    "X7.Iter.C78_transformed",
    "X7.Iter.C78_transformed_drop",
    "X7.Iter.C78_holes_drop",
    "X7.Iter.C78_group_drop",
    "X7.Iter.C78_closed",
    "X7.Iter.C78_nested",
    "X7.Iter.C78_shared_counterexample",
    "X7.Iter.C78_break_counterexample"
   ],
   "note": "The tree itself is not changed while generators run. The two false claims are refuted by counterexamples."
  },
  {
   "property": "C79",
   "status": "proved",
   "theorems": [
    "X7.Bzi.C79_result",
    "X7.Bzi.C79_frame",
    "X7.Bzi.C79_shorter",
    "X7.Bzi.C79_elem",
    "X7.Bzi.C79_argument_counterexample"
   ],
   "note": "Heap model of the writes; C79_result is a refinement of the value model of C65 and C77; C79_argument_counterexample: the argument changes."
  },
  {
   "property": "C80",
   "status": "proved",
   "theorems": [
    "X7.VF.C80_lookup_pure",
    "X7.VF.C80_current",
    "X7.VF.C80_first",
    "X7.VF.C80_first_copies",
    "X7.VF.C80_frame",
    "X7.VF.C80_copy",
    "X7.VF.C80_copy_independent",
    "X7.VF.C80_stale_counterexample",
    "X7.VF.C80_eq_iff",
    "X7.VF.C80_eq_equivalence",
    "X7.VF.C80_eq_lookup",
    "X7.VF.C80_eq_counterexample",
    "X7.VF.C80_uniform"
   ],
   "note": "The false parts are counterexample theorems. Whether scipy copies the values is a parameter of the model."
  },
  {
   "property": "C81",
   "status": "proved",
   "theorems": [
    "X7.C81_box",
    "X7.C81_error",
    "X7.C81_total",
    "X7.C81_last",
    "X7.C81_ellipse",
    "X7.C81_rectangle",
    "X7.C81_stretch_exists",
    "X7.C81_drawn",
    "X7.C81_own_ellipse",
    "X7.C81_own_rectangle_counterexample",
    "X7.EH.C81_frame",
    "X7.EH.C81_value",
    "X7.EH.C81_undo",
    "X7.EH.C81_object_error"
   ],
   "note": "counterexample: own box exchanges the points of a mirrored rectangle"
  },
  {
   "property": "C82",
   "status": "proved",
   "theorems": [
    "X7.Gif.C82_palette",
    "X7.Gif.C82_palette_all",
    "X7.Gif.C82_palette_order",
    "X7.Gif.C82_alpha",
    "X7.Gif.C82_empty",
    "X7.Gif.C82_frames",
    "X7.Gif.C82_frames_cropped",
    "X7.Gif.C82_duration",
    "X7.Gif.C82_frame_by_frame",
    "X7.Gif.C82_narrow_counterexample",
    "X7.Gif.C82_fast_counterexample"
   ],
   "note": "PIL's operations are parameters with stated laws; counterexamples for narrow images and fast animations"
  },
  {
   "property": "C83",
   "status": "proved",
   "theorems": [
    "X7.SA.C83_drawn",
    "X7.SA.C83_polygon_empty",
    "X7.SA.C83_grid_counterexample",
    "X7.SA.C83_set_matrix",
    "X7.SA.C83_set_matrix_none",
    "X7.SA.C83_space",
    "X7.SA.C83_symmetric",
    "X7.SA.C83_space_counterexample",
    "X7.SA.C83_flat",
    "X7.SA.C83_animate",
    "X7.SA.C83_images"
   ],
   "note": "counterexamples: draw_bbox not symmetric about the x axis; grid arguments"
  },
  {
   "property": "C84",
   "status": "proved",
   "theorems": [
    "X7.Dump.C84_roundtrip",
    "X7.Dump.C84_none",
    "X7.Dump.C84_layout",
    "X7.Dump.C84_layout_elem",
    "X7.Dump.C84_methods",
    "X7.Dump.C84_methods_counterexample",
    "X7.Dump.C84_empty"
   ],
   "note": "Round trip under the same conditions on elements as C48. How x7-testing uses the table is not in the repository."
  },
  {
   "property": "C85",
   "status": "proved",
   "theorems": [
    "X7.C85_exact_model",
    "X7.C85_mid_between",
    "X7.C85_center_inside",
    "X7.C85_transformed_encloses",
    "X7.C85_transformed_exact_image",
    "X7.C85_transformed_exact_counterexample",
    "X7.C85_expand_grows",
    "X7.C85_expand_shrinks",
    "X7.C85_size"
   ],
   "note": "C85_exact_model links the rounded functions to the exact models. The exact image needs a tolerance: C85_transformed_exact_counterexample."
  },
  {
   "property": "C86",
   "status": "proved",
   "theorems": [
    "X7.C86_length",
    "X7.C86_passes_centres",
    "X7.C86_closes",
    "X7.C86_samples",
    "X7.C86_path",
    "X7.C86_in_box",
    "X7.C86_in_box_counterexample",
    "X7.C86_split",
    "X7.C86_split_inside",
    "X7.C86_split_inside_counterexample"
   ],
   "note": "The tolerance of C86_in_box cannot be dropped (C86_in_box_counterexample), nor the bound on t of C86_split_inside (C86_split_inside_counterexample, for every precision)."
  },
  {
   "property": "C87",
   "status": "proved",
   "theorems": [
    "X7.Fl.C87_sum_compensated",
    "X7.Fl.C87_area_compensated",
    "X7.Fl.C87_area_python",
    "X7.C87_exact_model",
    "X7.C87_difference_sign",
    "X7.C87_relative",
    "X7.C87_relative_counterexample",
    "X7.C87_products",
    "X7.C87_products_near",
    "X7.C87_rotate",
    "X7.C87_unit",
    "X7.C87_area",
    "X7.C87_area_exact",
    "X7.C87_history",
    "X7.C87_last_row",
    "X7.C87_first_call",
    "X7.C87_simple_exact"
   ],
   "note": "C87_exact_model links the rounded functions to the exact models. math.hypot, cosine and sine enter with an assumed error bound (hypothesis of C87_unit and C87_rotate). The tolerance of C87_relative cannot be dropped: C87_relative_counterexample."
  },
  {
   "property": "C88",
   "status": "proved",
   "theorems": [
    "X7.C88_exact_model",
    "X7.C88_linear",
    "X7.C88_linear_counterexample",
    "X7.C88_sinusoidal",
    "X7.C88_circular",
    "X7.C88_morph",
    "X7.C88_morph_end_counterexample",
    "X7.C88_multi",
    "X7.C88_interpolate",
    "X7.C88_ramp",
    "X7.C88_build_times",
    "X7.C88_frame_times",
    "X7.C88_last_frame_counterexample"
   ],
   "note": "C88_exact_model links the rounded functions to the models of C59-C62. Sine and cosine enter with an assumed error bound. That tolerances cannot be dropped: C88_linear_counterexample, C88_morph_end_counterexample, C88_last_frame_counterexample."
  },
  {
   "property": "C89",
   "status": "proved",
   "theorems": [
    "X7.C89_exact_model",
    "X7.C89_cross_sign",
    "X7.C89_parallel",
    "X7.C89_exceptions",
    "X7.C89_parallel_counterexample",
    "X7.C89_points_in_box",
    "X7.C89_from_pts",
    "X7.C89_from_pts_counterexample",
    "X7.C89_closest",
    "X7.C89_segment_sound",
    "X7.C89_segment_symm",
    "X7.C89_intersection_near",
    "X7.C89_whole_crossing",
    "X7.C89_crossing_missed_counterexample",
    "X7.C89_assertion_counterexample"
   ],
   "note": "C89_exact_model links the rounded methods to the models of C17-C20. Tolerances cannot be dropped: C89_parallel_counterexample, C89_from_pts_counterexample, C89_crossing_missed_counterexample, C89_assertion_counterexample."
  },
  {
   "property": "C90",
   "status": "proved",
   "theorems": [
    "X7.Bzi.C90_history",
    "X7.Bzi.C90_exceptions",
    "X7.Bzi.C90_kept",
    "X7.Bzi.C90_add_edge",
    "X7.Bzi.C90_validate",
    "X7.Bzi.C90_any_edge",
    "X7.Bzi.C90_missing_edge_counterexample",
    "X7.Bzi.C90_same_graph",
    "X7.Bzi.C90_self_valid"
   ],
   "note": "C90_same_graph links the steps to the edges of the C65 model; C90_missing_edge_counterexample records the vacuous check."
  },
  {
   "property": "C91",
   "status": "proved",
   "theorems": [
    "X7.Pix.C91_over",
    "X7.Pix.C91_over_between",
    "X7.Pix.C91_composed",
    "X7.Pix.C91_shadow_reach",
    "X7.Pix.C91_shadow_empty",
    "X7.Pix.C91_shadow_color",
    "X7.Pix.C91_shadow_plain",
    "X7.Pix.C91_shadow_wraps",
    "X7.Pix.C91_shadow_counterexample",
    "X7.Pix.C91_image",
    "X7.Pix.C91_background",
    "X7.Pix.C91_drawn"
   ],
   "note": "PIL's BLUR and Brightness are parameters with stated laws; PIL's own kernel is shown to satisfy them."
  },
  {
   "property": "C92",
   "status": "proved",
   "theorems": [
    "X7.Trans.C92_corner",
    "X7.Trans.C92_alpha_ignored",
    "X7.Trans.C92_alpha_counterexample",
    "X7.Trans.C92_mode",
    "X7.Trans.C92_with_palette",
    "X7.Trans.C92_two_colors",
    "X7.Trans.C92_palette_image",
    "X7.Trans.C92_palette_counterexample",
    "X7.Trans.C92_palette_empty"
   ],
   "note": "PIL's choice of palette is a parameter."
  },
  {
   "property": "C93",
   "status": "proved",
   "theorems": [
    "X7.TM.C93_almost_equal",
    "X7.TM.C93_tolerance_counterexample",
    "X7.TM.C93_explain",
    "X7.TM.C93_control_point_counterexample",
    "X7.TM.C93_plot_restores",
    "X7.TM.C93_plot_exception",
    "X7.TM.C93_plot_counterexample"
   ],
   "note": "x7.testing and matplotlib are parameters; the _counterexample theorems record what does not hold."
  },
  {
   "property": "C94",
   "status": "proved",
   "theorems": [
    "X7.BoxObj.C94_queries",
    "X7.BoxObj.C94_methods",
    "X7.BoxObj.C94_equality",
    "X7.BoxObj.C94_rebuild",
    "X7.BoxObj.C94_tuple_counterexample",
    "X7.BoxObj.C94_items",
    "X7.BoxObj.C94_measures",
    "X7.BoxObj.C94_frame",
    "X7.BoxObj.C94_new_box",
    "X7.BoxObj.C94_history",
    "X7.BoxObj.C94_whole",
    "X7.BoxObj.C94_atomic",
    "X7.BoxObj.C94_half_filled_counterexample",
    "X7.BoxObj.C94_copy_counterexample"
   ],
   "note": "Model/BBox.lean leaves half filled boxes out; C94_queries, C94_methods and C94_measures show that the two models agree on all others. The _counterexample theorems record what does not hold."
  },
  {
   "property": "C95",
   "status": "proved",
   "theorems": [
    "X7.LH.C95_reads",
    "X7.LH.C95_points",
    "X7.LH.C95_follows",
    "X7.LH.C95_shift",
    "X7.LH.C95_frame",
    "X7.LH.C95_equal",
    "X7.LH.C95_end_counterexample",
    "X7.LH.C95_alias_counterexample",
    "X7.LH.C95_equal_counterexample"
   ],
   "note": "Assigning the attributes origin and direction of a line is not represented. The _counterexample theorems record what does not hold."
  },
  {
   "property": "C96",
   "status": "proved",
   "theorems": [
    "X7.AR.C96_generic",
    "X7.AR.C96_base_generic_errors",
    "X7.AR.C96_generic_counterexample",
    "X7.AR.C96_orig_counterexample",
    "X7.AR.C96_no_file_counterexample",
    "X7.AR.C96_save",
    "X7.AR.C96_run",
    "X7.AR.C96_no_steps",
    "X7.AR.C96_simple",
    "X7.AR.C96_simple_counterexample",
    "X7.AR.C96_update",
    "X7.AR.C96_shown_unique",
    "X7.AR.C96_build",
    "X7.AR.C96_failure",
    "X7.AR.C96_added",
    "X7.AR.C96_reachable",
    "X7.AR.C96_new_builder",
    "X7.AR.C96_images"
   ],
   "note": "Functions of generic animations act on points only. Output paths end in .gif; iOS is not modelled; pygifsicle.optimize is assumed to raise ValueError for a missing source. The _counterexample theorems record what does not hold."
  },
  {
   "property": "C97",
   "status": "proved",
   "theorems": [
    "X7.NB.C97_paired",
    "X7.NB.C97_no_nan",
    "X7.NB.C97_add",
    "X7.NB.C97_add_none",
    "X7.NB.C97_inter",
    "X7.NB.C97_overlaps",
    "X7.NB.C97_nan_box",
    "X7.NB.C97_nan_point",
    "X7.NB.C97_eq_self",
    "X7.NB.C97_grow",
    "X7.NB.C97_order_counterexample",
    "X7.NB.C97_add_counterexample",
    "X7.NB.C97_overlaps_counterexample",
    "X7.NB.C97_corner_counterexample"
   ],
   "note": "The counterexample theorems prove the parts marked False in the statement to be false."
  },
  {
   "property": "C98",
   "status": "proved",
   "theorems": [
    "X7.Fmt.C98_rounding",
    "X7.Fmt.C98_monotone",
    "X7.Fmt.C98_transfer",
    "X7.Fmt.C98_functions",
    "X7.Fmt.C98_width",
    "X7.Fmt.C98_height",
    "X7.Fmt.C98_area",
    "X7.Fmt.C98_area_zero_counterexample",
    "X7.Fmt.C98_area_nan_counterexample",
    "X7.Fmt.C98_center",
    "X7.Fmt.C98_mid",
    "X7.Fmt.C98_center_counterexample",
    "X7.Fmt.C98_expand_grows",
    "X7.Fmt.C98_expand_shrinks",
    "X7.Fmt.C98_expand_counterexample",
    "X7.Fmt.C98_transform",
    "X7.Fmt.C98_transformed",
    "X7.Fmt.C98_transform_counterexample",
    "X7.Fmt.C98_transform_infinite",
    "X7.Fmt.C98_transform_nan",
    "X7.Fmt.C98_identity_counterexample"
   ],
   "note": "The counterexample theorems prove the parts marked False in the statement to be false. Formats are parameters; Python's is Fmt.double. Signed zeros are not distinguished: no function modelled here does."
  },
  {
   "property": "C99",
   "status": "proved",
   "theorems": [
    "X7.C99_exact_arc",
    "X7.C99_min_rotation",
    "X7.C99_min_rotation_whole",
    "X7.C99_min_rotation_counterexample",
    "X7.C99_arc",
    "X7.C99_arc2p",
    "X7.C99_scale_bbox",
    "X7.C99_width",
    "X7.C99_exact_shapes",
    "X7.C99_rounded_rect",
    "X7.C99_rounded_close",
    "X7.C99_rounded_rect_counterexample",
    "X7.C99_ellipse",
    "X7.C99_ellipse_counterexample"
   ],
   "note": "The counterexample theorems prove the parts marked False in the statement to be false, at every precision. scale_bbox with keep_aspect is not included."
  },
  {
   "property": "C100",
   "status": "proved",
   "theorems": [
    "X7.Disp.C100_prefix",
    "X7.Disp.C100_builder",
    "X7.Disp.C100_order",
    "X7.Disp.C100_detail",
    "X7.Disp.C100_outline",
    "X7.Disp.C100_hidden",
    "X7.Disp.C100_headings",
    "X7.Disp.C100_lines",
    "X7.Disp.C100_group_lines",
    "X7.Disp.C100_holes_lines",
    "X7.Disp.C100_holes_counterexample"
   ],
   "note": "C100_holes_counterexample proves the part marked False in the statement to be false."
  },
  {
   "property": "C101",
   "status": "proved",
   "theorems": [
    "X7.Dump.C101_point",
    "X7.Dump.C101_vector",
    "X7.Dump.C101_control_point",
    "X7.Dump.C101_pens",
    "X7.Dump.C101_transform",
    "X7.Dump.C101_line",
    "X7.Dump.C101_box",
    "X7.Dump.C101_pens_by_shape",
    "X7.Dump.C101_same_text",
    "X7.Dump.C101_elem",
    "X7.Dump.C101_group",
    "X7.Dump.C101_group_filled_counterexample",
    "X7.Dump.C101_basic_counterexample",
    "X7.Dump.C101_matrix_counterexample",
    "X7.Dump.C101_name_counterexample",
    "X7.Dump.C101_str_line",
    "X7.Dump.C101_str_transform",
    "X7.Dump.C101_str_curve",
    "X7.Dump.C101_str_group",
    "X7.Dump.C101_str_counterexample",
    "X7.Dump.C101_str_pen_counterexample"
   ],
   "note": "The counterexample theorems prove the parts marked False in the statement to be false."
  },
  {
   "property": "C102",
   "status": "proved",
   "theorems": [
    "X7.IterChange.C102_kept",
    "X7.IterChange.C102_exchanged",
    "X7.IterChange.C102_bound",
    "X7.IterChange.C102_size",
    "X7.IterChange.C102_restore",
    "X7.IterChange.C102_deep_inner",
    "X7.IterChange.C102_deep_outer",
    "X7.IterChange.C102_replacing",
    "X7.IterChange.C102_skip_counterexample"
   ],
   "note": "Python's documented rules for changing a dict while iterating over it are an assumption (3.8 and later)."
  },
  {
   "property": "C103",
   "status": "proved",
   "theorems": [
    "X7.C103_scaled",
    "X7.C103_normalized",
    "X7.C103_normalized_longest",
    "X7.C103_normalized_nan",
    "X7.C103_longest_counterexample",
    "X7.C103_smoothed_mean",
    "X7.C103_smoothed",
    "X7.C103_untransform_transform",
    "X7.C103_transform_untransform",
    "X7.C103_keep_aspect",
    "X7.C103_canvas_fit"
   ],
   "note": "Overflow and underflow are left out, as in all rounded claims (C98 has infinities). What np.linalg.inv computes enters through the residual of its result only."
  },
  {
   "property": "C104",
   "status": "proved",
   "theorems": [
    "X7.Fmt.C104_normalized_nan",
    "X7.Fmt.C104_normalized_overflow",
    "X7.Fmt.C104_normalized_underflow",
    "X7.Fmt.C104_normalized",
    "X7.Fmt.C104_intersection_errors",
    "X7.Fmt.C104_parallel_symm",
    "X7.Fmt.C104_parallel_iff",
    "X7.Fmt.C104_self_parallel",
    "X7.Fmt.C104_perpendicular",
    "X7.Fmt.C104_perpendicular_counterexample",
    "X7.Fmt.C104_nan_counterexample",
    "X7.Fmt.C104_segment_sound",
    "X7.Fmt.C104_segment_errors",
    "X7.Fmt.C104_transfer",
    "X7.Fmt.C104_segment_transfer",
    "X7.Fmt.C104_closest_transfer",
    "X7.Fmt.C104_unit_errors",
    "X7.Fmt.C104_closest_errors",
    "X7.Fmt.C104_unit_counterexample"
   ],
   "note": "The two zeros are one number. math.hypot: infinite if an argument is, otherwise not a number below infinity if an argument is NaN; for finite arguments off by less than one unit of the last digit."
  },
  {
   "property": "C105",
   "status": "proved",
   "theorems": [
    "X7.Fmt.C105_centres",
    "X7.Fmt.C105_samples",
    "X7.Fmt.C105_in_box",
    "X7.Fmt.C105_path",
    "X7.Fmt.C105_not_finite",
    "X7.Fmt.C105_transfer",
    "X7.Fmt.C105_bbox",
    "X7.Fmt.C105_split_inside",
    "X7.Fmt.C105_split_near",
    "X7.Fmt.C105_split_counterexample",
    "X7.Fmt.C105_linear_ends",
    "X7.Fmt.C105_linear_finite",
    "X7.Fmt.C105_linear_counterexample",
    "X7.Fmt.C105_morph",
    "X7.Fmt.C105_morph_near",
    "X7.Fmt.C105_morph_far",
    "X7.Fmt.C105_overflow_counterexample",
    "X7.Fmt.C105_double",
    "X7.Fmt.C105_double_ok",
    "X7.Fmt.C105_bbox_error"
   ],
   "note": "The two zeros are one number. The class of animation is modelled by the update of one point (or control point)."
  },
  {
   "property": "C106",
   "status": "proved",
   "theorems": [
    "X7.CH.C106_history",
    "X7.CH.C106_program",
    "X7.CH.C106_points_stay",
    "X7.CH.C106_others",
    "X7.CH.C106_outline",
    "X7.CH.C106_made",
    "X7.CH.C106_undo",
    "X7.CH.C106_undo_counterexample",
    "X7.CH.C106_shared_counterexample"
   ],
   "note": "Refinement of object histories by value histories; points never move; outline kept through histories; undo; counterexamples for restore after add_one and for shared control points."
  },
  {
   "property": "C107",
   "status": "proved",
   "theorems": [
    "X7.Build.C107_saved",
    "X7.Build.C107_drawn",
    "X7.Build.C107_kept",
    "X7.Build.C107_point_counterexample",
    "X7.Build.C107_on_top_counterexample"
   ],
   "note": ""
  },
  {
   "property": "C108",
   "status": "proved",
   "theorems": [
    "X7.MH.C108_history",
    "X7.MH.C108_program",
    "X7.MH.C108_update",
    "X7.MH.C108_hidden",
    "X7.MH.C108_morph",
    "X7.MH.C108_ends",
    "X7.MH.C108_outline",
    "X7.MH.C108_made",
    "X7.MH.C108_chain_counterexample",
    "X7.MH.C108_reversed_counterexample"
   ],
   "note": "Refinement of object histories with in-place updates by value histories; constructor, update and blend theorems; outlines kept; counterexamples for chains of morphs and for reversed curves."
  },
  {
   "property": "C109",
   "status": "proved",
   "theorems": [
    "X7.Failed.C109_points",
    "X7.Failed.C109_lines",
    "X7.Failed.C109_boxes",
    "X7.Failed.C109_transforms",
    "X7.Failed.C109_transforms_counterexample",
    "X7.Failed.C109_scale_bbox",
    "X7.Failed.C109_scale_bbox_counterexample",
    "X7.Failed.C109_builders",
    "X7.Failed.C109_replace",
    "X7.Failed.C109_curves",
    "X7.Failed.C109_restore_counterexample",
    "X7.Failed.C109_update",
    "X7.Failed.C109_morph",
    "X7.Failed.C109_morph_counterexample"
   ],
   "note": "Failing calls can be left out of programs on points, lines, boxes, builders, curves and transforms, with exact exceptions and counterexamples; what failing updates, morph constructors, replace and scale_bbox leave."
  },
  {
   "property": "C110",
   "status": "proved",
   "theorems": [
    "X7.Multi.C110_history",
    "X7.Multi.C110_program",
    "X7.Multi.C110_update",
    "X7.Multi.C110_hidden",
    "X7.Multi.C110_made",
    "X7.Multi.C110_multi",
    "X7.Multi.C110_outline",
    "X7.Multi.C110_turn_counterexample"
   ],
   "note": "Refinement of object histories with in-place updates by value histories; constructor, update and polyline theorems; outlines kept; counterexample for a shared target."
  },
  {
   "property": "C111",
   "status": "proved",
   "theorems": [
    "X7.Stage.C111_history",
    "X7.Stage.C111_elems",
    "X7.Stage.C111_tree",
    "X7.Stage.C111_restore",
    "X7.Stage.C111_undo",
    "X7.Stage.C111_order_counterexample",
    "X7.Stage.C111_equal_counterexample",
    "X7.Stage.C111_nested_counterexample"
   ],
   "note": "Refinement with references in the tree; exact table of what is shown after every history; undo theorem for all orders; three counterexamples."
  },
  {
   "property": "C112",
   "status": "proved",
   "theorems": [
    "X7.Scene.C112_others",
    "X7.Scene.C112_time",
    "X7.Scene.C112_frame",
    "X7.Scene.C112_frames",
    "X7.Scene.C112_apart",
    "X7.Scene.C112_points_first",
    "X7.Scene.C112_morph",
    "X7.Scene.C112_multi",
    "X7.Scene.C112_linear",
    "X7.Scene.C112_sinusoidal",
    "X7.Scene.C112_circular",
    "X7.Scene.C112_generic",
    "X7.Scene.C112_stops",
    "X7.Scene.C112_order_counterexample"
   ],
   "note": "Drawing is any function of the objects that changes no point or vector; relative points are in C62 and C96."
  },
  {
   "property": "C113",
   "status": "proved",
   "theorems": [
    "X7.LK.C113_move",
    "X7.LK.C113_rigid",
    "X7.LK.C113_still",
    "X7.LK.C113_others",
    "X7.LK.C113_copy",
    "X7.LK.C113_snapshot",
    "X7.LK.C113_cp_copy",
    "X7.LK.C113_cp_restore",
    "X7.LK.C113_restore",
    "X7.LK.C113_restore_links",
    "X7.LK.C113_restore_mismatch",
    "X7.LK.C113_undo",
    "X7.LK.C113_transform",
    "X7.LK.C113_reversed",
    "X7.LK.C113_addOne",
    "X7.LK.C113_addOne_empty",
    "X7.LK.C113_addOne_links",
    "X7.LK.C113_addOne_torn",
    "X7.LK.C113_addOne_orphans",
    "X7.LK.C113_undo_counterexample",
    "X7.LK.C113_addOne_torn_counterexample",
    "X7.LK.C113_addOne_orphans_counterexample",
    "X7.LK.C113_handle_copy_counterexample"
   ],
   "note": "Curves without name, pen and own transform; those are in C106."
  },
  {
   "property": "C114",
   "status": "proved",
   "theorems": [
    "X7.SH.C114_owner",
    "X7.SH.C114_caller",
    "X7.SH.C114_move",
    "X7.SH.C114_others",
    "X7.SH.C114_history",
    "X7.SH.C114_setXf",
    "X7.SH.C114_make",
    "X7.SH.C114_copy",
    "X7.SH.C114_restore",
    "X7.SH.C114_restore_class",
    "X7.SH.C114_update",
    "X7.SH.C114_transform",
    "X7.SH.C114_points",
    "X7.SH.C114_digi",
    "X7.SH.C114_handles",
    "X7.SH.C114_digi_handles",
    "X7.SH.C114_undo",
    "X7.SH.C114_handles_stale_counterexample",
    "X7.SH.C114_restore_class_counterexample",
    "X7.SH.C114_copy_transform_counterexample"
   ],
   "note": "closed is always True and left out; names of points and relative points are in Model/ElemHeap and Model/PointHeap."
  },
  {
   "property": "C115",
   "status": "proved",
   "theorems": [
    "X7.GH.C115_draw",
    "X7.GH.C115_leaf",
    "X7.GH.C115_context",
    "X7.GH.C115_others",
    "X7.GH.C115_history",
    "X7.GH.C115_add",
    "X7.GH.C115_copy",
    "X7.GH.C115_copy_live",
    "X7.GH.C115_transform",
    "X7.GH.C115_restore",
    "X7.GH.C115_undo",
    "X7.GH.C115_recursion",
    "X7.GH.C115_tree",
    "X7.GH.C115_acyclic",
    "X7.GH.C115_names",
    "X7.GH.C115_self_counterexample",
    "X7.GH.C115_restore_loop_counterexample",
    "X7.GH.C115_shared_name_counterexample",
    "X7.GH.C115_undo_elements_counterexample",
    "X7.GH.C115_second_undo_counterexample"
   ],
   "note": "closed groups, named points and shapes with holes are left out; the insides of curves and shapes as objects are in C106, C113 and C114."
  },
  {
   "property": "C116",
   "status": "proved",
   "theorems": [
    "X7.DH.C116_depth",
    "X7.DH.C116_with",
    "X7.DH.C116_imports",
    "X7.DH.C116_imports_order",
    "X7.DH.C116_text",
    "X7.DH.C116_file",
    "X7.DH.C116_second_counterexample",
    "X7.DH.C116_with_counterexample",
    "X7.DH.C116_comma_empty",
    "X7.DH.C116_lines"
   ],
   "note": "Text is tokens per line as in C48; prefixes of variables are taken to be identifiers. The file theorem is for histories that write no lines by hand and dump outside with-blocks; depth, indentation, imports and the layout of the text are for all histories (indentation: blocks in which output() is not called)."
  },
  {
   "property": "C117",
   "status": "proved",
   "theorems": [
    "X7.RB.C117_reading",
    "X7.RB.C117_shallow",
    "X7.RB.C117_moves",
    "X7.RB.C117_place",
    "X7.RB.C117_place_calc",
    "X7.RB.C117_loop",
    "X7.RB.C117_safe",
    "X7.RB.C117_self_equal",
    "X7.RB.C117_adjust",
    "X7.RB.C117_failed",
    "X7.RB.C117_agrees",
    "X7.RB.C117_depth_counterexample",
    "X7.RB.C117_itself_counterexample",
    "X7.RB.C117_mutual_counterexample",
    "X7.RB.C117_assertion_counterexample",
    "X7.RB.C117_adjust_counterexample"
   ],
   "note": "Depth counts nested calls of xy (or ==) only. Assigning base on a plain Point or to something that is no point is not represented."
  },
  {
   "property": "C118",
   "status": "proved",
   "theorems": [
    "X7.GL.C118_look",
    "X7.GL.C118_iter",
    "X7.GL.C118_lookup_tree",
    "X7.GL.C118_encloses",
    "X7.GL.C118_depth",
    "X7.GL.C118_loop",
    "X7.GL.C118_lookup",
    "X7.GL.C118_replace",
    "X7.GL.C118_refused",
    "X7.GL.C118_gone",
    "X7.GL.C118_count_counterexample",
    "X7.GL.C118_lost_counterexample",
    "X7.GL.C118_into_itself_counterexample"
   ],
   "note": "replace is stated for elem a curve or shape; == on points with names or bases is C74's. The objects have no holes. Depth counts nested calls of the method only."
  },
  {
   "property": "C119",
   "status": "proved",
   "theorems": [
    "X7.XH.C119_call",
    "X7.XH.C119_alien",
    "X7.XH.C119_history",
    "X7.XH.C119_new",
    "X7.XH.C119_copy",
    "X7.XH.C119_results",
    "X7.XH.C119_roundtrip",
    "X7.XH.C119_matrix_dot",
    "X7.XH.C119_matrix_new",
    "X7.XH.C119_matrix_array",
    "X7.XH.C119_write",
    "X7.XH.C119_inverse_shared",
    "X7.XH.C119_spoilt_counterexample"
   ],
   "note": "Each Transform is what the calls on it make it; other Transforms, Matrix objects and arrays stay as they are; Matrix operations; the shared inverse is a finding."
  },
  {
   "property": "C120",
   "status": "proved",
   "theorems": [
    "X7.Approx.C120_bez_path",
    "X7.Approx.C120_limit",
    "X7.Approx.C120_sharp",
    "X7.Approx.C120_curve",
    "X7.Approx.C120_rounded",
    "X7.Approx.C120_ellipse",
    "X7.Approx.C120_sweep",
    "X7.Approx.C120_arc",
    "X7.Approx.C120_circle"
   ],
   "note": "Exact arithmetic; rounding of the listed points is the subject of C86 and C99. The constant 3/4 is shown to be attained (C120_sharp)."
  },
  {
   "property": "C121",
   "status": "proved",
   "theorems": [
    "X7.Approx.C121_bez_path",
    "X7.Approx.C121_limit",
    "X7.Approx.C121_transform",
    "X7.Approx.C121_curve",
    "X7.Approx.C121_ellipse_curve",
    "X7.Approx.C121_ellipse",
    "X7.Approx.C121_sweep",
    "X7.Approx.C121_arc",
    "X7.Approx.C121_circle"
   ],
   "note": "That half the integral of x dy - y dx is the area inside is Green's theorem, taken as the definition here. Exact arithmetic."
  },
  {
   "property": "C122",
   "status": "proved",
   "theorems": [
    "X7.Info.C122_row",
    "X7.Info.C122_row_determines",
    "X7.Info.C122_bytes",
    "X7.Info.C122_colours",
    "X7.Info.C122_interleaved_counterexample",
    "X7.Info.C122_four_channels",
    "X7.Info.C122_no_palette",
    "X7.Info.C122_listing",
    "X7.Info.C122_rows"
   ],
   "note": "What PIL reports of an image is an input; the text of a line is kept as its parts."
  },
  {
   "property": "C123",
   "status": "proved",
   "theorems": [
    "X7.Approx.C123_bez_path",
    "X7.Approx.C123_doubles"
   ],
   "note": "Rounding without overflow and underflow, as in C86."
  },
  {
   "property": "C124",
   "status": "proved",
   "theorems": [
    "X7.HH.C124_total",
    "X7.HH.C124_read",
    "X7.HH.C124_others",
    "X7.HH.C124_history",
    "X7.HH.C124_apart",
    "X7.HH.C124_made",
    "X7.HH.C124_list",
    "X7.HH.C124_copy",
    "X7.HH.C124_copy_apart",
    "X7.HH.C124_copy_shares",
    "X7.HH.C124_transform",
    "X7.HH.C124_restore",
    "X7.HH.C124_undo",
    "X7.HH.C124_open_part",
    "X7.HH.C124_copy_moves_counterexample",
    "X7.HH.C124_restore_half_counterexample",
    "X7.HH.C124_undo_holes_counterexample"
   ],
   "note": "Parts are curves, rectangles, rounded rectangles and ellipses."
  },
  {
   "property": "C125",
   "status": "proved",
   "theorems": [
    "X7.Refine.C125_handles",
    "X7.Refine.C125_polygon",
    "X7.Refine.C125_box",
    "X7.Refine.C125_box_open",
    "X7.Refine.C125_box_sharp",
    "X7.Refine.C125_box_open_counterexample",
    "X7.Refine.C125_split",
    "X7.Refine.C125_pieces",
    "X7.Refine.C125_pieces_cover",
    "X7.Refine.C125_add_one",
    "X7.Refine.C125_loop_never_split",
    "X7.Refine.C125_add_one_box_counterexample"
   ],
   "note": "Exact arithmetic."
  },
  {
   "property": "C126",
   "status": "proved",
   "theorems": [
    "X7.VF.C126_defined",
    "X7.VF.C126_side",
    "X7.VF.C126_uniform",
    "X7.VF.C126_shift",
    "X7.VF.C126_uniform_stays",
    "X7.VF.C126_opposed_counterexample"
   ],
   "note": "Exact arithmetic; one rounding per operation for single smoothings is in C103."
  },
  {
   "property": "C127",
   "status": "proved",
   "theorems": [
    "X7.Approx.C127_segment",
    "X7.Approx.C127_bez_path",
    "X7.Approx.C127_bez_path_limit",
    "X7.Approx.C127_curve",
    "X7.Approx.C127_transform",
    "X7.Approx.C127_reverse",
    "X7.Approx.C127_split",
    "X7.Approx.C127_add_one",
    "X7.Approx.C127_self_intersect",
    "X7.Approx.C127_elem"
   ],
   "note": "Exact arithmetic. For self_intersect the assumptions of C77 on the intersection finder."
  },
  {
   "property": "C128",
   "status": "proved",
   "theorems": [
    "X7.Elem.C128_parity",
    "X7.Elem.C128_region",
    "X7.Elem.C128_area",
    "X7.Elem.C128_rectangle",
    "X7.Elem.C128_overlap_counterexample",
    "X7.Elem.C128_outside_counterexample",
    "X7.Elem.C128_open_counterexample",
    "X7.Elem.C128_nested_counterexample"
   ],
   "note": "That the image library fills polygons by the even-odd rule is an assumption on the library, written as Spec/Fill.lean; pixels are not modelled."
  },
  {
   "property": "C129",
   "status": "proved",
   "theorems": [
    "X7.Anim.C129_interpolate",
    "X7.Anim.C129_ramp",
    "X7.Anim.C129_periodic",
    "X7.Anim.C129_point",
    "X7.Anim.C129_sharp",
    "X7.Anim.C129_frames",
    "X7.Anim.C129_loop",
    "X7.Anim.C129_offset_counterexample",
    "X7.Anim.C129_morph",
    "X7.Anim.C129_multi"
   ],
   "note": "Exact arithmetic; speeds are upper bounds, reached by linear animations (C129_sharp)."
  },
  {
   "property": "C130",
   "status": "proved",
   "theorems": [
    "X7.Elem.C130_transform",
    "X7.Elem.C130_paths",
    "X7.Elem.C130_element",
    "X7.Elem.C130_side_counterexample",
    "X7.Elem.C130_direction",
    "X7.Elem.C130_box",
    "X7.Elem.C130_bbox"
   ],
   "note": "That the image library fills polygons by the even-odd rule is an assumption on the library, written as Spec/Fill.lean; pixels are not modelled."
  },
  {
   "property": "C131",
   "status": "proved",
   "theorems": [
    "X7.Elem.C131_segment",
    "X7.Elem.C131_hull",
    "X7.Elem.C131_ray",
    "X7.Elem.C131_connected",
    "X7.Elem.C131_outline",
    "X7.Elem.C131_ellipse"
   ],
   "note": "That the image library fills polygons by the even-odd rule is an assumption on the library, written as Spec/Fill.lean; pixels are not modelled."
  },
  {
   "property": "C132",
   "status": "proved",
   "theorems": [
    "X7.Elem.C132_moved",
    "X7.Elem.C132_moved_sharp",
    "X7.Elem.C132_bez_path",
    "X7.Elem.C132_limit",
    "X7.Elem.C132_curve",
    "X7.Elem.C132_morph",
    "X7.Elem.C132_rounded"
   ],
   "note": "That the image library fills polygons by the even-odd rule is an assumption on the library, written as Spec/Fill.lean; pixels are not modelled."
  },
  {
   "property": "C133",
   "status": "proved",
   "theorems": [
    "X7.Elem.C133_rounded",
    "X7.Elem.C133_zero"
   ],
   "note": "That the image library fills polygons by the even-odd rule is an assumption on the library, written as Spec/Fill.lean; pixels are not modelled."
  },
  {
   "property": "C134",
   "status": "proved",
   "theorems": [
    "X7.Elem.C134_add_one",
    "X7.Elem.C134_self_intersect",
    "X7.Elem.C134_elem",
    "X7.Elem.C134_reverse"
   ],
   "note": "That the image library fills polygons by the even-odd rule is an assumption on the library, written as Spec/Fill.lean; pixels are not modelled. The intersection finder is a parameter with the law Lib.Sound, as in C77."
  },
  {
   "property": "C135",
   "status": "proved",
   "theorems": [
    "X7.Elem.C135_top",
    "X7.Elem.C135_keeps",
    "X7.Elem.C135_outside",
    "X7.Elem.C135_group",
    "X7.Elem.C135_shadow",
    "X7.Elem.C135_transform",
    "X7.Elem.C135_steps",
    "X7.Elem.C135_picture",
    "X7.Elem.C135_limit"
   ],
   "note": "That the image library fills polygons by the even-odd rule and overwrites what was there is an assumption on the library, written as Spec/Fill.lean and areaAt in Spec/Picture.lean. Points touched by lines and dots are left out."
  },
  {
   "property": "C136",
   "status": "proved",
   "theorems": [
    "X7.Elem.C136_odd",
    "X7.Elem.C136_integral",
    "X7.Elem.C136_area",
    "X7.Elem.C136_at_most",
    "X7.Elem.C136_holes",
    "X7.Elem.C136_curve",
    "X7.Elem.C136_convex",
    "X7.Elem.C136_twice_counterexample",
    "X7.Elem.C136_rectangle"
   ],
   "note": "That the image library fills polygons by the even-odd rule is an assumption on the library, written as Spec/Fill.lean; pixels are not modelled. C136_curve has the condition on the winding number of the drawn polygon as a hypothesis (that a curve is simple is not decided by its control points)."
  },
  {
   "property": "C137",
   "status": "proved",
   "theorems": [
    "X7.Elem.C137_transform",
    "X7.Elem.C137_flat",
    "X7.Elem.C137_element",
    "X7.Elem.C137_ellipse",
    "X7.Elem.C137_rounded",
    "X7.Elem.C137_rounded_zero"
   ],
   "note": "That the image library fills polygons by the even-odd rule is an assumption on the library, written as Spec/Fill.lean; pixels are not modelled. The transforms of C137_element are affine, as everywhere in the drawing (see C130)."
  },
  {
   "property": "C138",
   "status": "proved",
   "theorems": [
    "X7.Elem.C138_moved",
    "X7.Elem.C138_rounded",
    "X7.Elem.C138_morph",
    "X7.Elem.C138_steps",
    "X7.Elem.C138_limit",
    "X7.Elem.C138_exact",
    "X7.Elem.C138_corners",
    "X7.Elem.C138_winding",
    "X7.Elem.C138_simple"
   ],
   "note": "The even-odd rule of the image library is an assumption (Spec/Fill.lean); pixels are not modelled."
  }
 ]
}