{
 "claims": [
  {
   "property": "C01",
   "status": "proved",
   "theorems": [
    "Verif.TreeVec.C01_insert",
    "Verif.TreeVec.C04_history_refines_list"
   ],
   "note": ""
  },
  {
   "property": "C02",
   "status": "proved",
   "theorems": [
    "Verif.TreeVec.C02_remove",
    "Verif.TreeVec.C04_history_refines_list"
   ],
   "note": ""
  },
  {
   "property": "C03",
   "status": "proved",
   "theorems": [
    "Verif.TreeVec.C03_len",
    "Verif.TreeVec.C03_isEmpty",
    "Verif.TreeVec.C03_get",
    "Verif.TreeVec.C03_getMut",
    "Verif.TreeVec.C03_iter",
    "Verif.TreeVec.C03_range",
    "Verif.TreeVec.C03_from_iter"
   ],
   "note": "iter_mut/range_mut share the code shape of iter/range and are not modelled separately"
  },
  {
   "property": "C04",
   "status": "proved",
   "theorems": [
    "Verif.TreeVec.C04_reachable_good",
    "Verif.TreeVec.C04_history_refines_list"
   ],
   "note": ""
  },
  {
   "property": "C05",
   "status": "proved",
   "theorems": [
    "Verif.TreeVec.C05_depth"
   ],
   "note": ""
  },
  {
   "property": "C06",
   "status": "proved",
   "theorems": [
    "Verif.TreeVec.C06_partition_point",
    "Verif.TreeVec.C06_partition_point_sorted"
   ],
   "note": "predicate is pure (FnMut state not modelled)"
  },
  {
   "property": "C07",
   "status": "proved",
   "theorems": [
    "Verif.Curve.C07_push",
    "Verif.Curve.C07_push_history",
    "Verif.Curve.C07_iter_tiles"
   ],
   "note": ""
  },
  {
   "property": "C08",
   "status": "proved",
   "theorems": [
    "Verif.Curve.C08_order_at",
    "Verif.Curve.C08_order_at_panics",
    "Verif.Curve.C08_order_at_before_start",
    "Verif.Curve.C08_entry_at",
    "Verif.Curve.C08_entry_at_panics",
    "Verif.Curve.C08_order_after_definite",
    "Verif.Curve.C08_order_after_ish",
    "Verif.Curve.C08_order_after_end"
   ],
   "note": ""
  },
  {
   "property": "C09",
   "status": "proved",
   "theorems": [
    "Verif.Curve.C09_flip_flip",
    "Verif.Curve.C09_flip_order_at",
    "Verif.Curve.C09_flip_entry_at",
    "Verif.Curve.C09_flip_order_after",
    "Verif.Curve.C09_flip_wf"
   ],
   "note": ""
  },
  {
   "property": "C10",
   "status": "proved",
   "theorems": [
    "Verif.Curve.C10_slop_wf",
    "Verif.Curve.C10_slop_meaning",
    "Verif.Curve.C10_slop_conservative"
   ],
   "note": "y-slop, y+slop as abstract monotone maps (covers rounding)"
  },
  {
   "property": "C100",
   "status": "proved",
   "theorems": [
    "Verif.Full.C100_polygons",
    "Verif.Full.C100_shapes",
    "Verif.Full.C100_paths",
    "Verif.Full.Cross.all_but"
   ],
   "note": "specification: RightHoles, RightCurvedHoles (Full/Complement.lean); exact real arithmetic"
  },
  {
   "property": "C101",
   "status": "proved",
   "theorems": [
    "Verif.Full.C101_redrawn",
    "Verif.Full.C101_shapes",
    "Verif.Full.C101_directions",
    "Verif.Full.Cross.redrawn"
   ],
   "note": "specification: Redrawn, SameShape (Full/Redraw.lean); general position is asked of one of the two inputs only; exact real arithmetic"
  },
  {
   "property": "C102",
   "status": "proved",
   "theorems": [
    "Verif.Full.C102_moved",
    "Verif.Full.Cross.moved"
   ],
   "note": "specification: shift (Full/Translate.lean); general position is asked of the original only, Moderate and BeyondCorners of both; exact real arithmetic"
  },
  {
   "property": "C103",
   "status": "proved",
   "theorems": [
    "Verif.Full.C103_mirrored",
    "Verif.Full.Cross.mirrored"
   ],
   "note": "specification: mirror (Full/Mirror.lean); general position is asked of the original only, BeyondCorners of both; exact real arithmetic"
  },
  {
   "property": "C104",
   "status": "proved",
   "theorems": [
    "Verif.Full.C104_turned",
    "Verif.Full.Cross.turn_loose",
    "Verif.Full.Cross.turned"
   ],
   "note": "specification: turn, turnPt (Full/Upside.lean); exact real arithmetic"
  },
  {
   "property": "C11",
   "status": "proved",
   "theorems": [
    "Verif.Curve.C11_next_touch"
   ],
   "note": ""
  },
  {
   "property": "C12",
   "status": "proved",
   "theorems": [
    "Verif.Cache.C12_answers",
    "Verif.Cache.C12_stable",
    "Verif.Cache.C12_computed_once"
   ],
   "note": ""
  },
  {
   "property": "C13",
   "status": "proved",
   "theorems": [
    "Verif.Segs.C13_read_back",
    "Verif.Segs.C13_arrays"
   ],
   "note": "coordinates an arbitrary linear order; monotone splitting of curves is a parameter"
  },
  {
   "property": "C14",
   "status": "proved",
   "theorems": [
    "Verif.Segs.C14_cycle",
    "Verif.Segs.C14_share_endpoint",
    "Verif.Segs.C14_check_invariants"
   ],
   "note": ""
  },
  {
   "property": "C15",
   "status": "proved",
   "theorems": [
    "Verif.Segs.C15_chain"
   ],
   "note": ""
  },
  {
   "property": "C16",
   "status": "proved",
   "theorems": [
    "Verif.Segs.C16_schedules",
    "Verif.Segs.C16_membership"
   ],
   "note": ""
  },
  {
   "property": "C17",
   "status": "partial",
   "theorems": [
    "Verif.Segs.C17_interior_links_partial",
    "Verif.Segs.C17_open_path_has_next"
   ],
   "note": "the documented None at the ends is false of the code (second theorem)"
  },
  {
   "property": "C18",
   "status": "partial",
   "theorems": [
    "Verif.Segs.C18_failed_add_partial",
    "Verif.Segs.C18_success_means_closed",
    "Verif.Segs.C18_leftovers"
   ],
   "note": "a failing call leaves unscheduled segments behind (C18_leftovers)"
  },
  {
   "property": "C19",
   "status": "proved",
   "theorems": [
    "Verif.BinOp.C19_inside"
   ],
   "note": "i32 as unbounded integers"
  },
  {
   "property": "C20",
   "status": "proved",
   "theorems": [
    "Verif.BinOp.C20_comm",
    "Verif.BinOp.C20_xor",
    "Verif.BinOp.C20_partition",
    "Verif.BinOp.C20_xor_differences",
    "Verif.BinOp.C20_outside",
    "Verif.BinOp.C20_reverse",
    "Verif.BinOp.C20_self"
   ],
   "note": ""
  },
  {
   "property": "C21",
   "status": "partial",
   "theorems": [
    "Verif.BinOp.C21_infinity",
    "Verif.BinOp.C21_tolerance",
    "Verif.BinOp.C21_nan_partial",
    "Verif.BinOp.C21_nan_missed"
   ],
   "note": "the NaN clause is false of the code: NaN is reported only when every coordinate is NaN (C21_nan_missed); exact arithmetic for the tolerance"
  },
  {
   "property": "C22",
   "status": "proved",
   "theorems": [
    "Verif.BinOp.C22_group",
    "Verif.BinOp.C22_single",
    "Verif.BinOp.C22_accumulate"
   ],
   "note": ""
  },
  {
   "property": "C23",
   "status": "proved",
   "theorems": [
    "Verif.Topo.C23_add_clockwise",
    "Verif.Topo.C23_add_counter_clockwise",
    "Verif.Topo.C23_delete",
    "Verif.Topo.C23_rings"
   ],
   "note": "all executions; sweep input characterised by RangeHyp/RangeSpec; coordinates an arbitrary linear order, winding numbers an arbitrary commutative group"
  },
  {
   "property": "C24",
   "status": "proved",
   "theorems": [
    "Verif.Topo.C24_no_panic",
    "Verif.Topo.C24_one_open",
    "Verif.Topo.C24_pieces",
    "Verif.Topo.C24_traced",
    "Verif.Topo.C24_horizontal_cover",
    "Verif.Topo.C24_order"
   ],
   "note": "all executions; sweep input characterised by RangeHyp/RangeSpec; coordinates an arbitrary linear order, winding numbers an arbitrary commutative group"
  },
  {
   "property": "C25",
   "status": "proved",
   "theorems": [
    "Verif.Topo.C25_local",
    "Verif.Topo.C25_sides",
    "Verif.Topo.C25_sweep"
   ],
   "note": "all executions; sweep input characterised by RangeHyp/RangeSpec; coordinates an arbitrary linear order, winding numbers an arbitrary commutative group"
  },
  {
   "property": "C26",
   "status": "proved",
   "theorems": [
    "Verif.Merge.C26_safe",
    "Verif.Merge.C26_consistent",
    "Verif.Merge.C26_wedge"
   ],
   "note": "no-panic and ring structure unconditional; winding consistency under EndAdjacent, shown necessary by C26_wedge; topology the result of any complete execution (Run) of the sweep model, closeness test arbitrary"
  },
  {
   "property": "C27",
   "status": "proved",
   "theorems": [
    "Verif.Contours.C27_terminates",
    "Verif.Contours.C27_partition"
   ],
   "note": "includes debug assertions and termination; topology any one satisfying Consistent (established by run_consistent for the sweep); inside an arbitrary predicate; paths as lists of half-segments"
  },
  {
   "property": "C28",
   "status": "proved",
   "theorems": [
    "Verif.Contours.C28_closed_simple"
   ],
   "note": "topology any one satisfying Consistent (established by run_consistent for the sweep); inside an arbitrary predicate; paths as lists of half-segments"
  },
  {
   "property": "C29",
   "status": "proved",
   "theorems": [
    "Verif.Contours.C29_forest"
   ],
   "note": "topology any one satisfying Consistent (established by run_consistent for the sweep); inside an arbitrary predicate; paths as lists of half-segments"
  },
  {
   "property": "C30",
   "status": "proved",
   "theorems": [
    "Verif.Contours.C30_grouped",
    "Verif.Contours.C30_contours"
   ],
   "note": "any forest, in particular the result of contours"
  },
  {
   "property": "C31",
   "status": "proved",
   "theorems": [
    "Verif.Sweep.C31_increasing",
    "Verif.Sweep.C31_content",
    "Verif.Sweep.C31_marks",
    "Verif.Sweep.C31_no_skip",
    "Verif.Sweep.C31_end",
    "Verif.Sweep.C31_terminates",
    "Verif.Sweep.C31_finite"
   ],
   "note": "heights, delivery, completeness, finitely many lines with any intersections; every state reached by the modelled sweep, under Sched (schedules sorted and complete) and PP (binary search contract, C06/C60)"
  },
  {
   "property": "C32",
   "status": "proved",
   "theorems": [
    "Verif.Sweep.C32_total_order",
    "Verif.Sweep.C32_queue"
   ],
   "note": "order of events and the queue; every state reached by the modelled sweep, under Sched (schedules sorted and complete) and PP (binary search contract, C06/C60)"
  },
  {
   "property": "C33",
   "status": "proved",
   "theorems": [
    "Verif.Sweep.C33_merge_adjacent",
    "Verif.Sweep.C33_changed_intervals",
    "Verif.Sweep.C33_unchanged"
   ],
   "note": "merge_adjacent for all sorted lists; what the intervals mean on reached lines; every state reached by the modelled sweep, under Sched (schedules sorted and complete) and PP (binary search contract, C06/C60)"
  },
  {
   "property": "C34",
   "status": "proved",
   "theorems": [
    "Verif.Sweep.C34_ordered",
    "Verif.Sweep.C34_within_error"
   ],
   "note": "ranges delivered on reached lines; error bound under EpsOrd; every state reached by the modelled sweep, under Sched (schedules sorted and complete) and PP (binary search contract, C06/C60)"
  },
  {
   "property": "C35",
   "status": "proved",
   "theorems": [
    "Verif.Sweep.C35_reorders",
    "Verif.Sweep.C35_no_new_violation"
   ],
   "note": "any line without duplicates; second part assumes transitivity of the comparisons with the left segment"
  },
  {
   "property": "C36",
   "status": "proved",
   "theorems": [
    "Verif.Sweep.C36_advance"
   ],
   "note": "never panics; every state reached by the modelled sweep, under Sched (schedules sorted and complete) and PP (binary search contract, C06/C60)"
  },
  {
   "property": "C37",
   "status": "proved",
   "theorems": [
    "Verif.Range.C37_tiles",
    "Verif.Range.C37_positions_increase",
    "Verif.Range.C37_positions_exact",
    "Verif.Range.C37_connected"
   ],
   "note": "positions an arbitrary linear order; one event per segment and range"
  },
  {
   "property": "C38",
   "status": "proved",
   "theorems": [
    "Verif.Scan.C38_lookup",
    "Verif.Scan.C38_tiles",
    "Verif.Scan.C38_interval"
   ],
   "note": "records over any linear order"
  },
  {
   "property": "C39",
   "status": "proved",
   "theorems": [
    "Verif.Pos.C39_approximate",
    "Verif.Pos.C39_layout",
    "Verif.Pos.C39_not_descending"
   ],
   "note": "scan-line orders as guaranteed by C57/C58 (Input.Ok); that a path never goes up again is not claimed and false (C39_not_descending); exact real arithmetic"
  },
  {
   "property": "C40",
   "status": "partial",
   "theorems": [
    "Verif.Pos.C40_translation_partial",
    "Verif.Pos.C40_above_zero",
    "Verif.Pos.C40_not_invariant"
   ],
   "note": "full statement false in the code (C40_not_invariant); proved for drawings that do not begin above height 0 before and after; exact real arithmetic"
  },
  {
   "property": "C41",
   "status": "proved",
   "theorems": [
    "Verif.Geom.C41_lex",
    "Verif.Geom.C41_total",
    "Verif.Geom.C41_translate",
    "Verif.Geom.C41_nan_not_transitive"
   ],
   "note": "coordinates in any linear order, with NaN as a separate value"
  },
  {
   "property": "C42",
   "status": "proved",
   "theorems": [
    "Verif.Geom.C42_at_y",
    "Verif.Geom.C42_ends",
    "Verif.Geom.C42_line_monotone",
    "Verif.Geom.C42_lower_upper",
    "Verif.Geom.C42_bracket",
    "Verif.Geom.C42_horizontal_lower",
    "Verif.Geom.C42_to_cubic",
    "Verif.Geom.C42_monotonic_cubic"
   ],
   "note": "straight and curved segments; root of the height polynomial by contract (a root in [0,1]); exact real arithmetic"
  },
  {
   "property": "C43",
   "status": "proved",
   "theorems": [
    "Verif.Geom.C43_push_quadratic_signs",
    "Verif.Geom.C43_complete",
    "Verif.Geom.C43_shift"
   ],
   "note": "all coefficients, thresholds and intervals; exact real arithmetic"
  },
  {
   "property": "C44",
   "status": "proved",
   "theorems": [
    "Verif.Geom.C44_max_min"
   ],
   "note": "all coefficients and intervals; exact real arithmetic"
  },
  {
   "property": "C45",
   "status": "proved",
   "theorems": [
    "Verif.Geom.C45_sub",
    "Verif.Geom.C45_sub_sharp"
   ],
   "note": "all estimates and functions; exact real arithmetic"
  },
  {
   "property": "C46",
   "status": "partial",
   "theorems": [
    "Verif.Curve.C46_push_pointwise_partial",
    "Verif.Curve.C46_flip_is_undetermined"
   ],
   "note": "full statement is false of the code: left/right flips (second theorem)"
  },
  {
   "property": "C47",
   "status": "partial",
   "theorems": [
    "Verif.Curve.C47_next_touch_complete_partial",
    "Verif.Curve.C47_touch_missed"
   ],
   "note": "full statement is false of the code (second theorem)"
  },
  {
   "property": "C48",
   "status": "proved",
   "theorems": [
    "Verif.Segs.C48_subpaths"
   ],
   "note": ""
  },
  {
   "property": "C49",
   "status": "proved",
   "theorems": [
    "Verif.Segs.C49_origins"
   ],
   "note": ""
  },
  {
   "property": "C50",
   "status": "proved",
   "theorems": [
    "Verif.Topo.C50_scan_west"
   ],
   "note": "all executions; sweep input characterised by RangeHyp/RangeSpec; coordinates an arbitrary linear order, winding numbers an arbitrary commutative group"
  },
  {
   "property": "C51",
   "status": "proved",
   "theorems": [
    "Verif.Contours.C51_left"
   ],
   "note": "topology any one satisfying Consistent (established by run_consistent for the sweep); inside an arbitrary predicate; paths as lists of half-segments"
  },
  {
   "property": "C52",
   "status": "partial",
   "theorems": [
    "Verif.Contours.C52_label_partial",
    "Verif.Contours.C52_touching"
   ],
   "note": "proved for contours that share no point with another contour; counterexample when contours touch where the walk starts"
  },
  {
   "property": "C53",
   "status": "partial",
   "theorems": [
    "Verif.Merge.C53_pairs",
    "Verif.Merge.C53_pair_partial",
    "Verif.Merge.C53_four"
   ],
   "note": "exact description of the result for all groups; the documented replacement proved for pairs, refuted for a group of four; topology the result of any complete execution (Run) of the sweep model, closeness test arbitrary"
  },
  {
   "property": "C54",
   "status": "proved",
   "theorems": [
    "Verif.Merge.C54_horizontal",
    "Verif.Merge.C54_nonvacuous"
   ],
   "note": "under EndAdjacent; topology the result of any complete execution (Run) of the sweep model, closeness test arbitrary"
  },
  {
   "property": "C55",
   "status": "proved",
   "theorems": [
    "Verif.Merge.C55_nontrivial",
    "Verif.Merge.C55_west"
   ],
   "note": "under EndAdjacent / NoneBetween; topology the result of any complete execution (Run) of the sweep model, closeness test arbitrary"
  },
  {
   "property": "C56",
   "status": "partial",
   "theorems": [
    "Verif.Merge.C56_contours",
    "Verif.Merge.C56_labels_partial"
   ],
   "note": "labels only for contours that share no point with another; topology the result of any complete execution (Run) of the sweep model, closeness test arbitrary"
  },
  {
   "property": "C57",
   "status": "proved",
   "theorems": [
    "Verif.Scan.C57_sweep_line",
    "Verif.Scan.C57_order",
    "Verif.Scan.C57_merged",
    "Verif.Scan.C57_nonvacuous"
   ],
   "note": "all heights; any complete execution (Steps) of the sweep model, ranges on a line left to right and non-adjacent"
  },
  {
   "property": "C58",
   "status": "proved",
   "theorems": [
    "Verif.Scan.C58_records"
   ],
   "note": "all records; any complete execution (Steps) of the sweep model, ranges on a line left to right and non-adjacent"
  },
  {
   "property": "C59",
   "status": "partial",
   "theorems": [
    "Verif.Scan.C59_sound_partial",
    "Verif.Scan.C59_complete",
    "Verif.Scan.C59_in_progress",
    "Verif.Scan.C59_early"
   ],
   "note": "soundness and completeness for beginnings of closeness; two counterexamples to the doc comment"
  },
  {
   "property": "C60",
   "status": "proved",
   "theorems": [
    "Verif.TreeVec.C60_partition_point_mono"
   ],
   "note": "all reachable trees, capacity at least 4"
  },
  {
   "property": "C61",
   "status": "proved",
   "theorems": [
    "Verif.Sweep.C61_traced",
    "Verif.Sweep.C61_rings",
    "Verif.Sweep.C61_winding",
    "Verif.Sweep.C61_scan",
    "Verif.Sweep.C61_merge",
    "Verif.Sweep.bow_valid",
    "Verif.Sweep.bow_result"
   ],
   "note": "under Env.Valid: schedules, exact end points, binary search, closed contours, and lines ordered up to 2 eps (OrdC) on all reached lines; order itself is C62"
  },
  {
   "property": "C62",
   "status": "partial",
   "theorems": [
    "Verif.Sweep.C62_order",
    "Verif.Sweep.C62_missed_crossing",
    "Verif.Sweep.linesEnv_sound",
    "Verif.Sweep.three_order"
   ],
   "note": "within 2 m, under Sound m (comparisons sound with margin m) and SwapSafe at every handled intersection; C62_missed_crossing shows that the full statement is false"
  },
  {
   "property": "C63",
   "status": "partial",
   "theorems": [
    "Verif.Geom.C63_signs_partial",
    "Verif.Geom.C63_signs_wrong"
   ],
   "note": "documented meaning, except for the inputs on which the code is wrong; exact real arithmetic"
  },
  {
   "property": "C64",
   "status": "proved",
   "theorems": [
    "Verif.Geom.C64_transversal_after",
    "Verif.Geom.C64_transversal_before"
   ],
   "note": "all monotone cubics; exact real arithmetic"
  },
  {
   "property": "C65",
   "status": "proved",
   "theorems": [
    "Verif.Geom.C65_monotonic_pieces",
    "Verif.Geom.C65_flat"
   ],
   "note": "all cubics; exact real arithmetic"
  },
  {
   "property": "C66",
   "status": "proved",
   "theorems": [
    "Verif.Geom.C66_ends_area",
    "Verif.Geom.C66_hybrid_bounds",
    "Verif.Geom.C66_bounds"
   ],
   "note": "bounds for all descending cubics; root finder by contract (finds all roots in the unit interval); exact real arithmetic"
  },
  {
   "property": "C67",
   "status": "proved",
   "theorems": [
    "Verif.Geom.C67_definite_orders",
    "Verif.Geom.C67_meeting_is_close"
   ],
   "note": "all descending cubics, with rotations; termination by a measure over halvings and rotations; root finder by contract; exact real arithmetic"
  },
  {
   "property": "C68",
   "status": "proved",
   "theorems": [
    "Verif.Geom.C68_tolerance",
    "Verif.Geom.C68_straight",
    "Verif.Geom.C68_lines"
   ],
   "note": "pairs for which with_rotation declines (for rotated pairs the tolerance is not kept, see DESIGN finding 23); exact real arithmetic"
  },
  {
   "property": "C69",
   "status": "proved",
   "theorems": [
    "Verif.Pos.C69_order",
    "Verif.Pos.C69_copied_curve",
    "Verif.Pos.C69_left_alone"
   ],
   "note": "all groups; order at every point of the drawn pieces; exact real arithmetic"
  },
  {
   "property": "C70",
   "status": "proved",
   "theorems": [
    "Verif.Pos.C70_positions",
    "Verif.Pos.C70_deviation"
   ],
   "note": "deviation in terms of the disorder d and distance D of the originals and the parabola error e; exact real arithmetic"
  },
  {
   "property": "C71",
   "status": "proved",
   "theorems": [
    "Verif.Pos.C71_copied",
    "Verif.Pos.C71_two_copied"
   ],
   "note": "copied parts; documented uniqueness of the unperturbed part refuted; exact real arithmetic"
  },
  {
   "property": "C72",
   "status": "proved",
   "theorems": [
    "Verif.Pos.C72_tangents",
    "Verif.Pos.C72_distance",
    "Verif.Pos.C72_accuracy",
    "Verif.Pos.C72_turning"
   ],
   "note": "middle control points distinct (otherwise false: C72_turning); exact real arithmetic"
  },
  {
   "property": "C73",
   "status": "proved",
   "theorems": [
    "Verif.Pos.C73_groups"
   ],
   "note": "history of the steps of the main loop; exact real arithmetic"
  },
  {
   "property": "C74",
   "status": "proved",
   "theorems": [
    "Verif.Path.C74_runs",
    "Verif.Path.C74_closed",
    "Verif.Path.C74_start"
   ],
   "note": "paths of closed contours (closedness: C28); the layout runs from end to end (C39); exact real arithmetic"
  },
  {
   "property": "C75",
   "status": "partial",
   "theorems": [
    "Verif.Path.C75_input",
    "Verif.Path.C75_merged",
    "Verif.Path.C75_path",
    "Verif.Path.Ex.C75_cut_off"
   ],
   "note": "full statement false in the code (Ex.C75_cut_off); proved when the merged segments are laid out as single elements and joined segments are consecutive pieces of one input curve; exact real arithmetic"
  },
  {
   "property": "C76",
   "status": "partial",
   "theorems": [
    "Verif.Full.C76_map_partial",
    "Verif.Full.C76_map_general"
   ],
   "note": "for all inputs for which the sweep line stays in order up to the tolerance (LineOrder), which is proved for inputs without crossings (planar_order) and in general position (general_order); exact real arithmetic"
  },
  {
   "property": "C77",
   "status": "partial",
   "theorems": [
    "Verif.Full.C77_winding_number",
    "Verif.Full.C77_pieces",
    "Verif.Full.C77_winding_partial",
    "Verif.Full.C77_winding_planar",
    "Verif.Full.C77_winding_general"
   ],
   "note": "general inputs: the order of the sweep line (LineOrder, BetweenOrder) is a hypothesis; inputs that do not cross and that the comparisons tell apart, and inputs in general position: proved; exact real arithmetic"
  },
  {
   "property": "C78",
   "status": "partial",
   "theorems": [
    "Verif.Full.C78_binary_op_partial",
    "Verif.Full.C78_binary_op_planar",
    "Verif.Full.C78_polylines_planar",
    "Verif.Full.C78_polygons"
   ],
   "note": "general inputs: the order of the sweep line (LineOrder, BetweenOrder) is a hypothesis; inputs that do not cross and that the comparisons tell apart: proved; exact real arithmetic"
  },
  {
   "property": "C79",
   "status": "proved",
   "theorems": [
    "Verif.Full.C79_no_panic",
    "Verif.Full.C79_lines",
    "Verif.Full.planar_ordered",
    "Verif.Full.general_ordered"
   ],
   "note": "as stated: no panic as long as the line is in order (Ordered; proved for inputs without crossings and in general position: planar_ordered, general_ordered), or the intersections of one line do not come to an end; exact real arithmetic"
  },
  {
   "property": "C80",
   "status": "proved",
   "theorems": [
    "Verif.Full.C80_paths",
    "Verif.Full.C80_polygons",
    "Verif.Full.Ex.triangle_without_square"
   ],
   "note": "inputs that do not cross and that the comparisons tell apart (for polygons: clearly apart somewhere); hypothesis FindsRoots on the root finder, which is not needed for polygons (C94); exact real arithmetic"
  },
  {
   "property": "C81",
   "status": "proved",
   "theorems": [
    "Verif.Full.C81_paths",
    "Verif.Full.C81_polylines",
    "Verif.Full.C81_polygons",
    "Verif.Full.general_of_loose",
    "Verif.Full.general_of_planar",
    "Verif.Full.general_of_pairs",
    "Verif.Full.LoosePolygons.of_pairs",
    "Verif.Full.Polygons.loose",
    "Verif.Full.Cross.xor_of_triangles",
    "Verif.Full.Fan.loose"
   ],
   "note": "paths in general position: pieces that cross are alone where they meet, all others are unrestricted (General; for polygons a condition on the edges alone: LoosePolygons). Special cases: inputs without crossings (general_of_planar, Polygons.loose), no three edges near each other (general_of_pairs, LoosePolygons.of_pairs); hypothesis FindsRoots on the root finder, which is not needed for polygons (C94); exact real arithmetic"
  },
  {
   "property": "C82",
   "status": "proved",
   "theorems": [
    "Verif.Full.C82_accept",
    "Verif.Full.C82_closed",
    "Verif.Full.C82_binary_op"
   ],
   "note": "specification: verdict, firstBad (Full/Accept.lean); kurbo::segments transcribed from its documentation; exact real arithmetic"
  },
  {
   "property": "C83",
   "status": "proved",
   "theorems": [
    "Verif.Full.C83_outlines",
    "Verif.Full.wind_outlines",
    "Verif.Full.C80_outlines",
    "Verif.Full.C81_outlines",
    "Verif.Full.Cross.xor_of_outlines"
   ],
   "note": "with consequences for C80 and C81; exact real arithmetic"
  },
  {
   "property": "C84",
   "status": "proved",
   "theorems": [
    "Verif.Full.C84_paths",
    "Verif.Full.C84_polygons",
    "Verif.Full.C84_general",
    "Verif.Full.C84_crossing",
    "Verif.Full.C84_curves",
    "Verif.Full.tight_of_steep",
    "Verif.Full.Ex.triangle_accurate",
    "Verif.Full.Cross.xor_accurate",
    "Verif.Full.Bow.and_accurate"
   ],
   "note": "inputs that do not cross and that the comparisons tell apart, or in general position (for polygons a condition on the edges alone; for paths C84_general also assumes that segments meet where they are not told apart; C84_curves: conditions on the geometry of the pieces alone, which control polygons that are steep enough satisfy (tight_of_steep)); hypothesis Beyond: the infinities of the code are beyond all points of the input; exact real arithmetic"
  },
  {
   "property": "C85",
   "status": "proved",
   "theorems": [
    "Verif.Full.C85_layout",
    "Verif.Full.C85_polygons",
    "Verif.Full.C85_crossing",
    "Verif.Full.C85_outlines",
    "Verif.Full.C85_again",
    "Verif.Full.Ex.triangle_paths",
    "Verif.Full.Cross.xor_paths",
    "Verif.Full.Cross.xor_winds",
    "Verif.Full.Fan.xor_winds"
   ],
   "note": "specification: RightPaths, Distant, NearOne (Full/Returned.lean), Drawn (Full/Draw.lean); polygons that do not cross and are clearly apart where they differ, or in general position; hypothesis BeyondCorners: the infinities of the code are beyond all corners; hypothesis FindsRoots on the root finder, which is not needed for polygons (C94); exact real arithmetic"
  },
  {
   "property": "C86",
   "status": "proved",
   "theorems": [
    "Verif.Full.C86_commutative",
    "Verif.Full.C86_parts",
    "Verif.Full.C86_self",
    "Verif.Full.C86_nothing"
   ],
   "note": "specification: Returns, Encloses, Distant; polygons in general position (LoosePolygons; C86_self: polygons that do not cross); hypothesis FindsRoots on the root finder, which is not needed for polygons (C94); exact real arithmetic"
  },
  {
   "property": "C87",
   "status": "proved",
   "theorems": [
    "Verif.Full.C87_curves",
    "Verif.Full.general_of_curves",
    "Verif.Full.Gentle.of_steep",
    "Verif.Full.Bow.loose",
    "Verif.Full.Bow.and_of_bows"
   ],
   "note": "specification: LooseCurves, Gentle, Near, Cleared, Peaceful, OffCurves (Full/Curves.lean): conditions on the geometry of the monotone pieces, \u03c1 bounds what the estimates leave open (Geom.roughness; Gentle.of_steep for control polygons that are not flat). Example: two shapes bounded by curves that cross; exact real arithmetic"
  },
  {
   "property": "C88",
   "status": "proved",
   "theorems": [
    "Verif.Pos.C88_deviation",
    "Verif.Pos.lean_within",
    "Verif.Pos.lean_paths"
   ],
   "note": "specification: Within (what \u03b4, W, H, \u03c3 bound), Input.x; the steps of the layout are those of C73. Example: a curve that comes close to a line and goes away again; exact real arithmetic"
  },
  {
   "property": "C89",
   "status": "proved",
   "theorems": [
    "Verif.Geom.C89_symmetric",
    "Verif.Full.C89_compare",
    "Verif.Full.compareNew_flip"
   ],
   "note": "hypothesis Upright (Geom/IProps.lean): no comparison after a rotation, whose centre depends on the first curve; LooseCurves implies it; exact real arithmetic"
  },
  {
   "property": "C90",
   "status": "proved",
   "theorems": [
    "Verif.Full.C90_curves",
    "Verif.Full.C90_layout",
    "Verif.Full.Bow.bow_paths",
    "Verif.Full.Bow.xor_of_bows"
   ],
   "note": "specification: RightCurves, Outside, Close, Level, Loop (Full/Curved.lean), Mild, driftOf (Full/Bundle.lean), LooseCurves (Full/Curves.lean), Unsplit; conditions on the geometry of the monotone pieces. C90_layout: also for curves that are cut into pieces. Example: two shapes bounded by curves that cross; exact real arithmetic"
  },
  {
   "property": "C91",
   "status": "proved",
   "theorems": [
    "Verif.Full.C91_return",
    "Verif.Full.C91_commutative",
    "Verif.Full.C91_parts",
    "Verif.Full.C91_nothing",
    "Verif.Full.C91_again",
    "Verif.Full.Bow.bow_laws"
   ],
   "note": "specification: Gives, Fills, Suited (Full/CurveLaws.lean; the hypotheses of C90, all on the pieces of the two paths in one order), Outside, RightCurves (Full/Curved.lean). Conditions on the pieces are inherited by fewer pieces and by the pieces in another order (Part); exact real arithmetic"
  },
  {
   "property": "C92",
   "status": "proved",
   "theorems": [
    "Verif.Geom.C92_exact",
    "Verif.Geom.C92_extrema",
    "Verif.Geom.C92_bounds",
    "Verif.Geom.C92_missed",
    "Verif.Geom.C92_not_all",
    "Verif.Geom.shortfall_le"
   ],
   "note": "specification: cubicAt, SolvesCubics (contract of kurbo::common::solve_cubic), shortfall; C92_missed shows that FindsRoots, which C66 ff. assume, is an idealization of this root finder, and C92_bounds says what remains of C66 without it; exact real arithmetic"
  },
  {
   "property": "C93",
   "status": "proved",
   "theorems": [
    "Verif.Geom.C93_height",
    "Verif.Geom.C93_position",
    "Verif.Geom.C93_part",
    "Verif.Geom.C93_lower_upper",
    "Verif.Geom.C93_ascends"
   ],
   "note": "specification: RootsWithin (contract of polycool's roots_between), speedBound, Cubic.accuracy; C93_ascends: a part of a descending curve that is not descending, which the exact model (C42, C67) excludes; the arithmetic other than the root finder is exact"
  },
  {
   "property": "C94",
   "status": "proved",
   "theorems": [
    "Verif.Full.C94_contours",
    "Verif.Full.C94_paths",
    "Verif.Full.C94_polygons",
    "Verif.Full.C94_crossing",
    "Verif.Full.C94_winding",
    "Verif.Full.C94_laws",
    "Verif.Full.Cross.xor_code"
   ],
   "note": "removes the hypothesis FindsRoots from C81, C85 and C86 for polygons; specification as there; exact real arithmetic"
  },
  {
   "property": "C95",
   "status": "proved",
   "theorems": [
    "Verif.Full.C95_box",
    "Verif.Full.C95_polygons",
    "Verif.Full.C95_paths",
    "Verif.Full.C95_result",
    "Verif.Full.C95_tolerance",
    "Verif.Full.C95_small",
    "Verif.Full.C95_auto",
    "Verif.Full.Cross.xor_auto",
    "Verif.Full.Cross.box_triangles",
    "Verif.Full.Bow.box_bows"
   ],
   "note": "specification: Box.Has, Box.Inside, Box.pad, PathPoint, Visible (Full/Box.lean); RightPaths as in C85. kurbo's bounding box of one cubic is taken at its word. Infinite and NaN coordinates: C21; exact real arithmetic"
  },
  {
   "property": "C96",
   "status": "proved",
   "theorems": [
    "Verif.Full.C96_paths",
    "Verif.Full.C96_polygons",
    "Verif.Full.C96_returned",
    "Verif.Full.C96_single",
    "Verif.Full.Cross.twice",
    "Verif.Full.Cross.three_tags"
   ],
   "note": "specification: number, RightRegion (Full/Generic.lean), windPolyline, windPath (Full/Wind.lean), LoosePolygons; C96_paths assumes FindsRoots, the others do not; exact real arithmetic"
  },
  {
   "property": "C97",
   "status": "proved",
   "theorems": [
    "Verif.Full.C97_polygons",
    "Verif.Full.C97_curves",
    "Verif.Full.C97_complement",
    "Verif.Full.C97_binary",
    "Verif.Full.Cross.exactly_one",
    "Verif.Full.Bow.in_all"
   ],
   "note": "specification: counter, wanted (what a user supplies), InPolygons (Full/Many.lean), RightRegion (Full/Generic.lean); general position as in C81 and C87; C97_curves and C97_complement assume FindsRoots; exact real arithmetic"
  },
  {
   "property": "C98",
   "status": "proved",
   "theorems": [
    "Verif.Full.C98_paths",
    "Verif.Full.C98_shapes",
    "Verif.Full.C98_single",
    "Verif.Full.Bow.exactly_one"
   ],
   "note": "specification: RightDrawing (Full/ManyCurves.lean), Outside, Close, Level, Loop (Full/Curved.lean); hypotheses on the pieces as in C90; exact real arithmetic"
  },
  {
   "property": "C99",
   "status": "proved",
   "theorems": [
    "Verif.Sweep.C99_told",
    "Verif.Sweep.C99_order",
    "Verif.Sweep.C99_returns",
    "Verif.Sweep.C99_stable",
    "Verif.Sweep.C99_within",
    "Verif.Full.C99_arena",
    "Verif.Full.C99_paths",
    "Verif.Full.C99_polygons",
    "Verif.Full.Cross.calls",
    "Verif.Full.Bow.calls"
   ],
   "note": "specification: Walk, Stop.Told (Sweep/Events.lean), InBlocks, LeftOf (Sweep/EventOrder.lean), Tiling, pieceOf (Range/Props.lean), RightCalls (Full/Events.lean); exact real arithmetic"
  }
 ]
}