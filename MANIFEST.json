{
 "claims": [
  {
   "property": "C01",
   "status": "proved",
   "theorems": [
    "Verif.CMTool.C01_result_is_partition"
   ],
   "note": ""
  },
  {
   "property": "C02",
   "status": "proved",
   "theorems": [
    "Verif.CMTool.C02_isMerged_iff_connected"
   ],
   "note": ""
  },
  {
   "property": "C03",
   "status": "proved",
   "theorems": [
    "Verif.CMTool.C03_mergeAllowed_exact",
    "Verif.CMTool.C03_prohibitions_enforced"
   ],
   "note": ""
  },
  {
   "property": "C04",
   "status": "proved",
   "theorems": [
    "Verif.CMTool.C04_rejected_calls_change_nothing"
   ],
   "note": ""
  },
  {
   "property": "C05",
   "status": "proved",
   "theorems": [
    "Verif.CMTool.C05_combine_succeeds_iff",
    "Verif.CMTool.C05_combine_composes"
   ],
   "note": ""
  },
  {
   "property": "C06",
   "status": "proved",
   "theorems": [
    "Verif.CMTool.C06_mergedSet_agrees"
   ],
   "note": ""
  },
  {
   "property": "C07",
   "status": "proved",
   "theorems": [
    "Verif.CMTool.C07_results_disjoint"
   ],
   "note": ""
  },
  {
   "property": "C08",
   "status": "proved",
   "theorems": [
    "Verif.CMTool.C08_greedy_by_score",
    "Verif.CMTool.C08_best_is_first"
   ],
   "note": ""
  },
  {
   "property": "C09",
   "status": "proved",
   "theorems": [
    "Verif.CMTool.Comb.C09_cluster_combinations",
    "Verif.CMTool.Comb.C09_terminates_every_seed"
   ],
   "note": ""
  },
  {
   "property": "C10",
   "status": "partial",
   "theorems": [
    "Verif.CMTool.Comb.C10_simple_combination_partial",
    "Verif.CMTool.Comb.C10_simple_large_is_undefined",
    "Verif.CMTool.Comb.C10_simple_bad_arguments",
    "Verif.CMTool.Comb.C10_plane_combinations_partial",
    "Verif.CMTool.Comb.C10_planes_large_is_undefined"
   ],
   "note": "true up to 33; proved to divide by zero from 34 on (32-bit factorial wraps to 0)"
  },
  {
   "property": "C11",
   "status": "partial",
   "theorems": [
    "Verif.CMTool.C11_offered_sets_partial",
    "Verif.CMTool.C11_reported_sets_partial"
   ],
   "note": "for at most 33 planes (C10)"
  },
  {
   "property": "C12",
   "status": "proved",
   "theorems": [
    "Verif.CMTool.C12_hits_follow_book",
    "Verif.CMTool.C12_planes_preserved"
   ],
   "note": ""
  },
  {
   "property": "C13",
   "status": "proved",
   "theorems": [
    "Verif.CMTool.C13_process_terminates"
   ],
   "note": ""
  },
  {
   "property": "C14",
   "status": "proved",
   "theorems": [
    "Verif.CMTool.C14_only_allowed_merges",
    "Verif.CMTool.C14_links_are_merged_unless_separated"
   ],
   "note": ""
  },
  {
   "property": "C15",
   "status": "proved",
   "theorems": [
    "Verif.CMTool.C15_priority_order"
   ],
   "note": ""
  },
  {
   "property": "C16",
   "status": "partial",
   "theorems": [
    "Verif.CMTool.AlgoArray.C16_bool_is_right_grouped",
    "Verif.CMTool.AlgoArray.C16_not_left_to_right",
    "Verif.CMTool.AlgoArray.C16_left_to_right_partial"
   ],
   "note": "the code groups to the right; the documented left-to-right value is refuted for mixed chains and proved for uniform ones"
  },
  {
   "property": "C55",
   "status": "partial",
   "theorems": [
    "Verif.CMTool.C55_stale_output_on_empty_event",
    "Verif.CMTool.C55_empty_event_clears_partial"
   ],
   "note": "refuted for the copying SetClusters, proved for the hit-list one"
  },
  {
   "property": "C17",
   "status": "proved",
   "theorems": [
    "Verif.PMAlg.C17_links_consistent"
   ],
   "note": ""
  },
  {
   "property": "C18",
   "status": "proved",
   "theorems": [
    "Verif.PMAlg.C18_addNext",
    "Verif.PMAlg.C18_removeNext",
    "Verif.PMAlg.C18_remove_undoes_add",
    "Verif.PMAlg.C18_disconnect",
    "Verif.PMAlg.C18_construct"
   ],
   "note": ""
  },
  {
   "property": "C19",
   "status": "proved",
   "theorems": [
    "Verif.Track.C19_vectors_in_step",
    "Verif.Track.C19_total_chi2"
   ],
   "note": ""
  },
  {
   "property": "C56",
   "status": "partial",
   "theorems": [
    "Verif.Track.C56_fit_infos",
    "Verif.Track.C56_space_points_lost",
    "Verif.Track.C56_direct_add_partial"
   ],
   "note": "fit infos proved; space points refuted: the book keeper forwards the element without its hit, so they are never recorded (direct OptionalOutputs use is right)"
  },
  {
   "property": "C20",
   "status": "proved",
   "theorems": [
    "Verif.DBScan3D.C20_labels"
   ],
   "note": "distances over exact rationals"
  },
  {
   "property": "C21",
   "status": "proved",
   "theorems": [
    "Verif.DBScan3D.C21_density_components",
    "Verif.DBScan3D.C21_order_independent"
   ],
   "note": "distances over exact rationals"
  },
  {
   "property": "C22",
   "status": "proved",
   "theorems": [
    "Verif.DBScan3D.C22_ids_contiguous"
   ],
   "note": "distances over exact rationals"
  },
  {
   "property": "C23",
   "status": "proved",
   "theorems": [
    "Verif.GausFit.C23_requests",
    "Verif.GausFit.C23_no_double_delete"
   ],
   "note": "ROOT's reading of the formula string is trusted"
  },
  {
   "property": "C24",
   "status": "proved",
   "theorems": [
    "Verif.Hough.C24_counters",
    "Verif.Hough.C24_exact",
    "Verif.Hough.C24_max"
   ],
   "note": "counters reduced to signed char as in the code; exact up to 127 overlapping calls"
  },
  {
   "property": "C25",
   "status": "proved",
   "theorems": [
    "Verif.Hough.C25_history",
    "Verif.Hough.C25_add_subtract",
    "Verif.Hough.C25_order",
    "Verif.Hough.C25_outside"
   ],
   "note": "distance tables (floating point) are an arbitrary function"
  },
  {
   "property": "C26",
   "status": "proved",
   "theorems": [
    "Verif.Hough.C26_connected",
    "Verif.Hough.C26_cells"
   ],
   "note": ""
  },
  {
   "property": "C27",
   "status": "partial",
   "theorems": [
    "Verif.Hough.C27_set_partial",
    "Verif.Hough.C27_set_actual",
    "Verif.Hough.C27_set_refuted",
    "Verif.Hough.C27_get_max_undefined",
    "Verif.Hough.C27_get_max_partial"
   ],
   "note": "the full claim is false: set() stops after the first block (operator precedence, line 184) and get_max() runs past the end of every non-empty map of 1..63 blocks; both refuted, the true remainder proved"
  },
  {
   "property": "C57",
   "status": "partial",
   "theorems": [
    "Verif.Hough.C57_shared_cell_refuted",
    "Verif.Hough.C57_shared_cell_partial",
    "Verif.Hough.C57_crossing_partial"
   ],
   "note": "false in general (refuted with a witness); proved for equal distances and for crossings ending more than one cell apart"
  },
  {
   "property": "C58",
   "status": "proved",
   "theorems": [
    "Verif.Hough.C58_reported_max",
    "Verif.Hough.C25_outside"
   ],
   "note": ""
  },
  {
   "property": "C28",
   "status": "proved",
   "theorems": [
    "Verif.KdTree.C28_build"
   ],
   "note": "positions are exact rationals; std::sort is any function meeting its contract"
  },
  {
   "property": "C29",
   "status": "proved",
   "theorems": [
    "Verif.KdTree.C29_brute",
    "Verif.KdTree.C29_neighbours",
    "Verif.KdTree.C29_empty_undefined"
   ],
   "note": "for the trees of non-empty hit lists (no null node, C28); on the tree of an empty list both searches are undefined (proved)"
  },
  {
   "property": "C59",
   "status": "partial",
   "theorems": [
    "Verif.KdTree.C59_close_hits_found_partial",
    "Verif.KdTree.C59_refuted"
   ],
   "note": "false in full: pruning along x uses the y-z separation (refuted with a witness); proved when all three coordinate differences are below the reference distance"
  },
  {
   "property": "C60",
   "status": "proved",
   "theorems": [
    "Verif.KdTree.C60_find_entry"
   ],
   "note": "also shows FindEntry never collects candidates"
  },
  {
   "property": "C30",
   "status": "proved",
   "theorems": [
    "Verif.MCComp.reset_conserves_charge",
    "Verif.MCComp.resetGroups_conserves_charge"
   ],
   "note": "Exact rational charges; the window is given after conversion to TDC counts, not reversed by more than two counts (see reversed_window), track ids not negative (see C32)."
  },
  {
   "property": "C31",
   "status": "proved",
   "theorems": [
    "Verif.MCComp.resetGroups_ok_iff",
    "Verif.MCComp.groups_index",
    "Verif.MCComp.single_index",
    "Verif.MCComp.unregistered_last"
   ],
   "note": "Both registration modes; repeated ids in group mode raise an exception, in single mode change nothing."
  },
  {
   "property": "C32",
   "status": "partial",
   "theorems": [
    "Verif.MCComp.accessors_in_range_partial",
    "Verif.MCComp.mcqSum_off_by_one",
    "Verif.MCComp.negative_track_ub",
    "Verif.MCComp.empty_cluster_ub"
   ],
   "note": "Refuted in full: MCQSum(nplanes), a negative track id and an empty cluster all index out of range; proved for the other requests."
  },
  {
   "property": "C33",
   "status": "proved",
   "theorems": [
    "Verif.MCComp.best_clusters"
   ],
   "note": "For non-empty clusters and at most 256 planes."
  },
  {
   "property": "C61",
   "status": "proved",
   "theorems": [
    "Verif.MCComp.cluster_ep"
   ],
   "note": "Division by a zero total gives 0 in the model (NaN in the code)."
  },
  {
   "property": "C62",
   "status": "proved",
   "theorems": [
    "Verif.MCComp.frac_spec"
   ],
   "note": ""
  },
  {
   "property": "C63",
   "status": "partial",
   "theorems": [
    "Verif.MCComp.shower_correctness_partial",
    "Verif.MCComp.shower_correctness_chargeless"
   ],
   "note": "Maximal product proved; that the chosen object contributes charge is refuted."
  },
  {
   "property": "C34",
   "status": "proved",
   "theorems": [
    "Verif.GaussElim.eliminate_solves",
    "Verif.GaussElim.pivots_ne_zero",
    "Verif.GaussElim.solveEquations_spec"
   ],
   "note": "exact rationals; system solvable when every leading block is non-singular"
  },
  {
   "property": "C64",
   "status": "partial",
   "theorems": [
    "Verif.GaussElim.getDistance_spec_partial",
    "Verif.GaussElim.zero_step_diverges"
   ],
   "note": "proved for a positive step; a zero step is accepted and the constructor never returns (zero_step_diverges)"
  },
  {
   "property": "C35",
   "status": "proved",
   "theorems": [
    "Verif.Wave.C35_erosion_dilation",
    "Verif.Wave.C35_between",
    "Verif.Wave.C35_tiny_element"
   ],
   "note": "structuring element >= 2; smaller ones are shown to read past the end"
  },
  {
   "property": "C36",
   "status": "proved",
   "theorems": [
    "Verif.Wave.C36_opening_closing",
    "Verif.Wave.C36_dominates",
    "Verif.Wave.C36_long_element"
   ],
   "note": "half window at most the vector length; longer ones are shown to read past the end"
  },
  {
   "property": "C65",
   "status": "partial",
   "theorems": [
    "Verif.Wave.C65_bounded_partial",
    "Verif.Wave.C65_opening_above_waveform"
   ],
   "note": "false: windows are not mirrored, so the opening can exceed the waveform; bound by the larger of sample and successor proved"
  },
  {
   "property": "C37",
   "status": "partial",
   "theorems": [
    "Verif.Wave.C37_triangle",
    "Verif.Wave.C37_triangle_short",
    "Verif.Wave.C37_triangle_range",
    "Verif.Wave.C37_triangle_constant",
    "Verif.Wave.C37_triangle_no_room",
    "Verif.Wave.C37_median_partial",
    "Verif.Wave.C37_last_window_skipped",
    "Verif.Wave.C37_median_short"
   ],
   "note": "triangle filter fully; the median filter skips the last tick with a full window (refuted) "
  },
  {
   "property": "C66",
   "status": "partial",
   "theorems": [
    "Verif.Wave.C66_derivative_partial",
    "Verif.Wave.C66_fresh_output",
    "Verif.Wave.C66_stale_ends",
    "Verif.Wave.C66_empty_throws"
   ],
   "note": "inner ticks proved; the end points keep stale content of the output vector (refuted)"
  },
  {
   "property": "C67",
   "status": "proved",
   "theorems": [
    "Verif.Wave.C67_truncated_mean",
    "Verif.Wave.C67_rms_ordered"
   ],
   "note": "exact rationals; squares of the rms values"
  },
  {
   "property": "C68",
   "status": "partial",
   "theorems": [
    "Verif.Wave.C68_peaks_partial",
    "Verif.Wave.C68_reads_past_end"
   ],
   "note": "ordering and termination proved; reading past the end refutes the first part"
  },
  {
   "property": "C38",
   "status": "proved",
   "theorems": [
    "Verif.CandHit.C38_candidates"
   ],
   "note": "includes absence of out-of-range reads; exact rationals"
  },
  {
   "property": "C39",
   "status": "proved",
   "theorems": [
    "Verif.CandHit.C39_global_maximum",
    "Verif.CandHit.C39_nothing_missed"
   ],
   "note": "termination: the recursion budget len+1 always suffices"
  },
  {
   "property": "C40",
   "status": "proved",
   "theorems": [
    "Verif.CandHit.C40_groups",
    "Verif.CandHit.C40_after_search",
    "Verif.CandHit.C40_reversed_first"
   ],
   "note": "for all lists whose first candidate is not reversed; applies to every search result"
  },
  {
   "property": "C41",
   "status": "proved",
   "theorems": [
    "Verif.Solver.C41_conserved",
    "Verif.Solver.C41_no_abort"
   ],
   "note": "Any number of Iterate calls on wires, orphans or everything, any alpha per call; exact arithmetic."
  },
  {
   "property": "C42",
   "status": "proved",
   "theorems": [
    "Verif.Solver.C42_optimal"
   ],
   "note": "Includes zero quadratic coefficient (division by zero modelled as +-inf or NaN)."
  },
  {
   "property": "C43",
   "status": "proved",
   "theorems": [
    "Verif.Solver.C43_exact_change",
    "Verif.Solver.C43_iterate"
   ],
   "note": "For coupling-closed sets of space charges; with orphans for alpha<2."
  },
  {
   "property": "C44",
   "status": "partial",
   "theorems": [
    "Verif.Solver.C44_each_once_partial",
    "Verif.Solver.C44_refuted"
   ],
   "note": "Proved unless the number of wires is a multiple of 1299827; then refuted: only wires 0, 1299827, ... are visited. Index arithmetic without 2^32 wrap-around."
  },
  {
   "property": "C69",
   "status": "proved",
   "theorems": [
    "Verif.Solver.C69_eval",
    "Verif.Solver.C69_abort_iff"
   ],
   "note": "Exact arithmetic."
  },
  {
   "property": "C45",
   "status": "proved",
   "theorems": [
    "Verif.Triplet.C45_exhaustive",
    "Verif.Triplet.C45_members",
    "Verif.Triplet.C45_nodup",
    "Verif.Triplet.C45_isect",
    "Verif.Triplet.C45_zero_threshold"
   ],
   "note": "For a positive drift threshold; with threshold 0 equal positions are reported."
  },
  {
   "property": "C46",
   "status": "proved",
   "theorems": [
    "Verif.Triplet.C46_members",
    "Verif.Triplet.C46_multiset"
   ],
   "note": "Full chain from constructor input (fill maps, sort, doublets, cache, merge join) to result, for any std::sort; only TPCs with an X hit (see C71)."
  },
  {
   "property": "C47",
   "status": "partial",
   "theorems": [
    "Verif.Triplet.C47_limit_partial",
    "Verif.Triplet.C47_refuted"
   ],
   "note": "Refuted: one more than the limit is returned; proved with bound m+1."
  },
  {
   "property": "C70",
   "status": "partial",
   "theorems": [
    "Verif.Triplet.C70_three_views",
    "Verif.Triplet.C70_drift",
    "Verif.Triplet.C70_two_views_partial",
    "Verif.Triplet.C70_refuted"
   ],
   "note": "Refuted for TripletsTwoView with a bad X channel (position is halved)."
  },
  {
   "property": "C71",
   "status": "partial",
   "theorems": [
    "Verif.Triplet.C71_found_partial",
    "Verif.Triplet.C71_refuted"
   ],
   "note": "Refuted: TPCs without any X hit are skipped."
  },
  {
   "property": "C48",
   "status": "partial",
   "theorems": [
    "Verif.Simple.C48_components_partial",
    "Verif.Simple.C48_refuted",
    "Verif.Simple.C50_terminates"
   ],
   "note": "Partition proved for all inputs; connected components proved if no hit is on wire 0, refuted on wire 0."
  },
  {
   "property": "C49",
   "status": "partial",
   "theorems": [
    "Verif.Simple.C49_touch_partial",
    "Verif.Simple.C49_symm_partial",
    "Verif.Simple.C49_refuted"
   ],
   "note": "Proved away from wire 0; on wire 0 unsigned wrap-around makes it asymmetric."
  },
  {
   "property": "C50",
   "status": "proved",
   "theorems": [
    "Verif.Simple.C50_terminates",
    "Verif.Simple.C50_empty"
   ],
   "note": "Terminates; but the empty list needs 2^64-1 idle rounds (size()-1 underflow)."
  },
  {
   "property": "C51",
   "status": "partial",
   "theorems": [
    "Verif.TrackCand.C51_ids",
    "Verif.TrackCand.C51_eq",
    "Verif.TrackCand.C51_rho_partial",
    "Verif.TrackCand.C51_append_total",
    "Verif.TrackCand.C51_plane_partial",
    "Verif.TrackCand.C51_rho_refuted",
    "Verif.TrackCand.C51_plane_reset_refuted",
    "Verif.TrackCand.C51_reset_stale",
    "Verif.TrackCand.C51_plane_append_refuted",
    "Verif.TrackCand.C51_plane_ctor_refuted",
    "Verif.TrackCand.C51_ctor_length_refuted"
   ],
   "note": "Detector and hit numbers, GetHitIDs, HitInTrack, operator== proved for every history. Ordering parameters proved without reset, planes for addHit-only histories; the rest is false and refuted (reset keeps stale rho/plane, append drops planes, constructors leave planes empty)."
  },
  {
   "property": "C72",
   "status": "partial",
   "theorems": [
    "Verif.TrackCand.C72_copy",
    "Verif.TrackCand.C72_refuted",
    "Verif.TrackCand.C72_self_append_partial"
   ],
   "note": "A different object: proved. The object itself: false, the loop never ends for a nonempty candidate (proved for every number of rounds)."
  },
  {
   "property": "C53",
   "status": "proved",
   "theorems": [
    "Verif.LinFit.C53_least_squares",
    "Verif.LinFit.C53_exact",
    "Verif.LinFit.C53_degenerate"
   ],
   "note": "Exact arithmetic (rationals instead of float); fewer than 65536 points, see C77."
  },
  {
   "property": "C54",
   "status": "proved",
   "theorems": [
    "Verif.Hull.C54_encloses",
    "Verif.Hull.C54_empty"
   ],
   "note": "For every lexicographically sorted nonempty list; on an empty list the code dereferences front() of an empty list (undefined)."
  },
  {
   "property": "C73",
   "status": "proved",
   "theorems": [
    "Verif.Hull.C73_area"
   ],
   "note": "Exact arithmetic."
  },
  {
   "property": "C74",
   "status": "partial",
   "theorems": [
    "Verif.Hull.C74_nearest_partial",
    "Verif.Hull.C74_last_edge_refuted",
    "Verif.Hull.C74_sign_refuted"
   ],
   "note": "False as stated: the last edge is never examined and the sign can be wrong beyond a corner. Proved: nearest among the edges examined."
  },
  {
   "property": "C75",
   "status": "partial",
   "theorems": [
    "Verif.Hull.C75_extreme_partial",
    "Verif.Hull.C75_refuted",
    "Verif.Hull.C75_single_refuted"
   ],
   "note": "False in general (rotating calipers over sorted lists); see the theorem for what holds."
  },
  {
   "property": "C76",
   "status": "partial",
   "theorems": [
    "Verif.Hull.C76_order_partial",
    "Verif.Hull.C76_cycle_refuted",
    "Verif.Hull.C76_hull_refuted"
   ],
   "note": "Lexicographic when x values are equal or differ by more than eps; otherwise the comparison has cycles and the hull can miss points."
  },
  {
   "property": "C77",
   "status": "partial",
   "theorems": [
    "Verif.LinFit.C77_finishes_partial",
    "Verif.LinFit.C77_refuted",
    "Verif.LinFit.C77_ndof_refuted"
   ],
   "note": "Finishes below 65536 points; never from there on (unsigned short index); ndof uses x.size(), not the points fitted."
  },
  {
   "property": "C52",
   "status": "proved",
   "theorems": [
    "Verif.Poly.C52_area",
    "Verif.Poly.C52_invariant",
    "Verif.Poly.C52_triangle",
    "Verif.Poly.C52_rectangle"
   ],
   "note": "Exact arithmetic."
  },
  {
   "property": "C78",
   "status": "partial",
   "theorems": [
    "Verif.Poly.C78_perimeter_partial",
    "Verif.Poly.C78_refuted"
   ],
   "note": "False: it returns the square root of the sum of squared edge lengths (2 for the unit square)."
  },
  {
   "property": "C79",
   "status": "partial",
   "theorems": [
    "Verif.Poly.C79_overlap_partial",
    "Verif.Poly.C79_vertical_refuted",
    "Verif.Poly.C79_disjoint_refuted"
   ],
   "note": "Common point implies true, without vertical edges; with a vertical edge always false; disjoint polygons can be reported as overlapping."
  },
  {
   "property": "C80",
   "status": "partial",
   "theorems": [
    "Verif.Poly.C80_overlap_meets",
    "Verif.Poly.C80_exact",
    "Verif.Poly.C80_intersection_partial",
    "Verif.Poly.C80_refuted",
    "Verif.Poly.C80_vertical_refuted"
   ],
   "note": "SegmentOverlap: proved. GetIntersection: false, the abscissa has the wrong sign; not finite for vertical segments."
  },
  {
   "property": "C81",
   "status": "partial",
   "theorems": [
    "Verif.Poly.C81_untangled_partial",
    "Verif.Poly.C81_closing_refuted",
    "Verif.Poly.C81_empty_refuted",
    "Verif.Poly.C81_refuted"
   ],
   "note": "When it returns, the open chain is untangled; the closing edge is not looked at; for some hexagons the recursion never ends; an empty polygon throws."
  },
  {
   "property": "C82",
   "status": "partial",
   "theorems": [
    "Verif.Poly.C82_even_odd_partial",
    "Verif.Poly.C82_triangle_partial",
    "Verif.Poly.C82_convex_partial",
    "Verif.Poly.C82_far_refuted"
   ],
   "note": "Even-odd rule for abscissae below 10000 and points not on the lines through the edges and the first vertex; false for polygons beyond (10000,10000)."
  },
  {
   "property": "C83",
   "status": "proved",
   "theorems": [
    "Verif.Voronoi.C83_first",
    "Verif.Voronoi.C83_insert",
    "Verif.Voronoi.C83_position"
   ],
   "note": "breakpoint comparisons are an arbitrary oracle"
  },
  {
   "property": "C84",
   "status": "proved",
   "theorems": [
    "Verif.Voronoi.C84_remove"
   ],
   "note": "an arc at the end of the beach line is outside the claim (null dereference, shown by example)"
  },
  {
   "property": "C85",
   "status": "proved",
   "theorems": [
    "Verif.Voronoi.C85_counts"
   ],
   "note": "non-empty beach lines; on an empty one countLeaves follows the null root pointer"
  },
  {
   "property": "C86",
   "status": "partial",
   "theorems": [
    "Verif.Voronoi.C86_refuted",
    "Verif.Voronoi.C86_order_partial"
   ],
   "note": "the balance claim is false after three insertions (refuted); order preservation and termination are proved"
  },
  {
   "property": "C87",
   "status": "proved",
   "theorems": [
    "Verif.Voronoi.C87_safe",
    "Verif.Voronoi.C87_ends",
    "Verif.Voronoi.C87_completes",
    "Verif.Voronoi.C87_final"
   ],
   "note": "coordinates and the order of events are an arbitrary oracle; points carry a non-null hit"
  },
  {
   "property": "C88",
   "status": "proved",
   "theorems": [
    "Verif.Voronoi.C88_dcel"
   ],
   "note": ""
  },
  {
   "property": "C89",
   "status": "proved",
   "theorems": [
    "Verif.Voronoi.C89_walk"
   ],
   "note": ""
  },
  {
   "property": "C90",
   "status": "proved",
   "theorems": [
    "Verif.Voronoi.Geom.C90_meet",
    "Verif.Voronoi.Geom.C90_order",
    "Verif.Voronoi.Geom.C90_order_level",
    "Verif.Voronoi.Geom.C90_left"
   ],
   "note": "over the reals; rounding not modelled"
  },
  {
   "property": "C91",
   "status": "partial",
   "theorems": [
    "Verif.Voronoi.Geom.C91_center",
    "Verif.Voronoi.Geom.C91_event",
    "Verif.Voronoi.Geom.C91_event_complete",
    "Verif.Voronoi.Geom.C91_center2_partial",
    "Verif.Voronoi.Geom.C91_center3",
    "Verif.Voronoi.Geom.C91_center2_refuted"
   ],
   "note": "computeCircleCenter2 refuses (or divides by zero for) some proper triangles: refuted; over the reals"
  },
  {
   "property": "C92",
   "status": "partial",
   "theorems": [
    "Verif.Voronoi.C92_single",
    "Verif.Voronoi.C92_box_partial",
    "Verif.Voronoi.C92_two"
   ],
   "note": "false for one point (null half edge dereferenced) and two points (bounding box of an empty list); the bounding box is proved for non-empty lists"
  },
  {
   "property": "C93",
   "status": "partial",
   "theorems": [
    "Verif.Voronoi.C93_terminate_partial",
    "Verif.Voronoi.C93_dangling_refuted"
   ],
   "note": "the last clause is false: erased vertices are read again by mergeDegenerateVertices"
  },
  {
   "property": "C94",
   "status": "partial",
   "theorems": [
    "Verif.Voronoi.C94_inside_partial",
    "Verif.Voronoi.C94_second_build_refuted"
   ],
   "note": "proved for the first build of an object, false for the second"
  },
  {
   "property": "C95",
   "status": "partial",
   "theorems": [
    "Verif.Voronoi.C95_face_area_partial",
    "Verif.Voronoi.C95_area_refuted",
    "Verif.Voronoi.C95_constructor_refuted",
    "Verif.Voronoi.C95_area_open"
   ],
   "note": "the stored face area is twice the area, Area drops the closing edge, the constructor calls Area on an empty list"
  },
  {
   "property": "C96",
   "status": "partial",
   "theorems": [
    "Verif.Voronoi.C96_links_partial",
    "Verif.Voronoi.C96_faces_refuted"
   ],
   "note": "everything but the faces of half edges is proved; these are null for every half edge of every diagram"
  },
  {
   "property": "C97",
   "status": "proved",
   "theorems": [
    "Verif.Mst.C97_partition",
    "Verif.Mst.C97_components"
   ],
   "note": "Prim's loop: termination within one round per hit, partition, components. The kd-tree search is an arbitrary function (its own theorems are C28, C29, C59, C60)."
  },
  {
   "property": "C98",
   "status": "proved",
   "theorems": [
    "Verif.Mst.C98_tree"
   ],
   "note": "Edge map symmetric, offered edges, connected, n-1 edges."
  },
  {
   "property": "C99",
   "status": "proved",
   "theorems": [
    "Verif.Mst.C99_minimum"
   ],
   "note": "Exchange argument; weights are rationals instead of floats."
  },
  {
   "property": "C100",
   "status": "proved",
   "theorems": [
    "Verif.Mst.C100_path"
   ],
   "note": "Principal components, projection and convex hull not modelled: any order of the isolated hits is allowed. Costs that reach the largest float are not modelled."
  },
  {
   "property": "C101",
   "status": "proved",
   "theorems": [
    "Verif.Mst.C101_longest"
   ],
   "note": "Distances and weights are rationals, the distance is an arbitrary function."
  },
  {
   "property": "C102",
   "status": "proved",
   "theorems": [
    "Verif.DBQueue.C102_clusters",
    "Verif.DBQueue.C102_linked",
    "Verif.DBQueue.C102_noise_refuted"
   ],
   "note": "All hits, neighbourhoods and thresholds; the neighbour search is an arbitrary function. C102_noise_refuted: a border hit looked at before its cluster keeps the noise mark although it is in a cluster (witnessed)."
  },
  {
   "property": "C103",
   "status": "proved",
   "theorems": [
    "Verif.DBSet.C103_clusters",
    "Verif.DBSet.C103_agree",
    "Verif.DBSet.C103_asymmetric_refuted"
   ],
   "note": "neighbourhood as any symmetric reflexive relation on the hits"
  },
  {
   "property": "C104",
   "status": "partial",
   "theorems": [
    "Verif.DBNear.C104_pair_symm",
    "Verif.DBNear.C104_read_past_end",
    "Verif.DBNear.C104_no_bridge",
    "Verif.DBNear.C104_leaf",
    "Verif.DBNear.C104_node",
    "Verif.DBNear.C104_query_sound",
    "Verif.DBNear.C104_query_partial",
    "Verif.DBNear.C104_dead_refuted",
    "Verif.DBNear.C104_prune_refuted"
   ],
   "note": "completeness of the tree search needs the query not to the right of a box: the pruning uses the wrong edge otherwise; the refutations show the general statement false of the code"
  },
  {
   "property": "C105",
   "status": "proved",
   "theorems": [
    "Verif.Builder.C105_selected",
    "Verif.Builder.C105_new_hit",
    "Verif.Builder.C105_disjoint",
    "Verif.Builder.C105_nodup"
   ],
   "note": ""
  },
  {
   "property": "C106",
   "status": "proved",
   "theorems": [
    "Verif.ClusParams.C106_params",
    "Verif.ClusParams.C106_order",
    "Verif.ClusParams.C106_start_time_refuted",
    "Verif.ClusParams.C106_wire_zero_refuted"
   ],
   "note": "charges and times as rationals; the two refutations are the exceptions named in the statement"
  },
  {
   "property": "C107",
   "status": "proved",
   "theorems": [
    "Verif.C3DOut.C107_particles",
    "Verif.C3DOut.C107_axes_clusters"
   ],
   "note": ""
  },
  {
   "property": "C108",
   "status": "proved",
   "theorems": [
    "Verif.C3DOut.C108_space_points",
    "Verif.C3DOut.C108_once",
    "Verif.C3DOut.C108_association",
    "Verif.C3DOut.C108_path_points",
    "Verif.C3DOut.C108_best_refuted"
   ],
   "note": "the refutation is the exception named in the statement"
  },
  {
   "property": "C109",
   "status": "proved",
   "theorems": [
    "Verif.C3DOut.C109_edges",
    "Verif.C3DOut.C109_path_edges",
    "Verif.C3DOut.C109_vertex_edges",
    "Verif.C3DOut.C109_vertex_id_refuted"
   ],
   "note": "the refutation is the exception named in the statement"
  },
  {
   "property": "C110",
   "status": "proved",
   "theorems": [
    "Verif.PMAlg.Tree.C110_connections"
   ],
   "note": "all forests, all collections of distinct tracks"
  },
  {
   "property": "C111",
   "status": "partial",
   "theorems": [
    "Verif.PMAlg.Tree.C111_tree_ids_partial",
    "Verif.PMAlg.Tree.C111_incomplete_refuted"
   ],
   "note": "proved for collections that hold all tracks of their trees; refuted otherwise"
  },
  {
   "property": "C112",
   "status": "partial",
   "theorems": [
    "Verif.PMAlg.Tree.C112_root",
    "Verif.PMAlg.Tree.C112_branches",
    "Verif.PMAlg.Tree.C112_attached_partial",
    "Verif.PMAlg.Tree.C112_daughter_refuted"
   ],
   "note": "proved for tracks without a parent; IsAttachedTo refuted for daughters"
  },
  {
   "property": "C113",
   "status": "partial",
   "theorems": [
    "Verif.PMAlg.Tree.C113_nearest",
    "Verif.PMAlg.Tree.C113_view_alone_partial",
    "Verif.PMAlg.Tree.C113_view_refuted"
   ],
   "note": "space version proved; view version proved for single tracks and refuted for trees"
  },
  {
   "property": "C114",
   "status": "partial",
   "theorems": [
    "Verif.PMAlg.Tree.C114_merge_partial",
    "Verif.PMAlg.Tree.C114_daughter",
    "Verif.PMAlg.Tree.C114_later_refuted"
   ],
   "note": "Proved for i1 < i2; refuted for i1 > i2 (stale index after erase), which PMAlgStitching.cxx:273 always uses."
  },
  {
   "property": "C115",
   "status": "partial",
   "theorems": [
    "Verif.PMAlg.Tree.C115_canFlip",
    "Verif.PMAlg.Tree.C115_flip_partial",
    "Verif.PMAlg.Tree.C115_same_trees",
    "Verif.PMAlg.Tree.C115_unguarded_refuted"
   ],
   "note": "Proved for tracks for which CanFlip is true; refuted without the guard (several callers do not ask)."
  },
  {
   "property": "C116",
   "status": "partial",
   "theorems": [
    "Verif.PMAlg.Tree.C116_insert_partial",
    "Verif.PMAlg.Tree.C116_remove_partial",
    "Verif.PMAlg.Tree.C116_front_refuted"
   ],
   "note": "Proved away from the front of a branch and for three or more nodes; refuted for both excluded cases."
  },
  {
   "property": "C117",
   "status": "proved",
   "theorems": [
    "Verif.PMAlg.Tree.C117_attach"
   ],
   "note": "Node positions and TPC numbers are parameters."
  },
  {
   "property": "C118",
   "status": "proved",
   "theorems": [
    "Verif.TC.C118_store",
    "Verif.TC.C118_end_points",
    "Verif.TC.C118_failed_store_refuted",
    "Verif.TC.C118_many_hits_refuted"
   ],
   "note": "Charge averages not modelled. Refuted: a trajectory that uses a hit twice is refused but its hits stay marked as owned by a trajectory that does not exist; with more than 16 hits in a point the hits stay marked with the number under construction."
  },
  {
   "property": "C119",
   "status": "partial",
   "theorems": [
    "Verif.TC.C119_kill",
    "Verif.TC.C119_restore_partial",
    "Verif.TC.C119_kill_restore",
    "Verif.TC.C119_taken_refuted"
   ],
   "note": "Restoring keeps the agreement only while all hits of the trajectory are free; refuted otherwise: two trajectories use the same hit."
  },
  {
   "property": "C120",
   "status": "proved",
   "theorems": [
    "Verif.TC.C120_split",
    "Verif.TC.C120_no_vertex_refuted",
    "Verif.TC.C120_failed_muon_refuted"
   ],
   "note": "SetPDGCode is a parameter. Refuted: without a vertex both parts stay attached to both old vertices; a refused split of a muon has removed its code."
  },
  {
   "property": "C121",
   "status": "proved",
   "theorems": [
    "Verif.TC.C121_merge",
    "Verif.TC.C121_refuses",
    "Verif.TC.C121_dead_vertex_refuted",
    "Verif.TC.C121_refused_vertex_refuted",
    "Verif.TC.C121_lost_refuted"
   ],
   "note": "Shower trajectories and the final AttachAnyVertexToTraj are not modelled. Refuted: after a merge across a vertex the new trajectory can be attached to the killed vertex; a refused merge has removed the vertex between the two; with more than 16 hits in a point both originals are lost."
  },
  {
   "property": "C122",
   "status": "proved",
   "theorems": [
    "Verif.TC.C122_kill_vertex",
    "Verif.TC.C122_kill_keeps",
    "Verif.TC.C122_3d_stays_refuted",
    "Verif.TC.C122_incomplete_refuted"
   ],
   "note": "Refuted: the step that makes a 3D vertex with fewer than two 2D vertices obsolete never runs for a live vertex (proved for every slice); it runs when a killed vertex is killed again, which also takes the photon mark from other trajectories."
  },
  {
   "property": "C123",
   "status": "proved",
   "theorems": [
    "Verif.TC.C123_kill_3d",
    "Verif.TC.C123_pfp_refuted"
   ],
   "note": "Refuted: particles stay attached to the killed 3D vertex."
  },
  {
   "property": "C124",
   "status": "proved",
   "theorems": [
    "Verif.TC.C124_store_vertex",
    "Verif.TC.C124_vertex_tjs",
    "Verif.TC.C124_wrong_number_refuted",
    "Verif.TC.C124_twice_refuted"
   ],
   "note": "Refuted: with a wrong number the ends keep the number; a trajectory with both ends at the vertex is listed twice."
  },
  {
   "property": "C125",
   "status": "proved",
   "theorems": [
    "Verif.TC.C125_check",
    "Verif.TC.C125_ok_passes",
    "Verif.TC.C125_incomplete_refuted"
   ],
   "note": "Refuted: the check misses a 3D vertex that names a killed 2D vertex and a trajectory attached to a vertex of another plane."
  },
  {
   "property": "C126",
   "status": "proved",
   "theorems": [
    "Verif.TC.C126_ok_passes",
    "Verif.TC.C126_yes_sound",
    "Verif.TC.C126_incomplete_refuted"
   ],
   "note": "The converse is refuted: several disagreements pass, one makes the check read beyond the end of a list."
  },
  {
   "property": "C127",
   "status": "partial",
   "theorems": [
    "Verif.TC.C127_partition",
    "Verif.TC.C127_duplicates_partial",
    "Verif.TC.C127_duplicates_refuted"
   ],
   "note": "HasDuplicateHits never ends without hits and always answers yes from 65536 hits on."
  },
  {
   "property": "C128",
   "status": "partial",
   "theorems": [
    "Verif.TC.C128_reverse",
    "Verif.TC.C128_twice_partial",
    "Verif.TC.C128_angle_refuted",
    "Verif.TC.C128_halo_refuted"
   ],
   "note": "An angle of exactly -pi comes back as pi."
  },
  {
   "property": "C129",
   "status": "proved",
   "theorems": [
    "Verif.Rff.C129_regions"
   ],
   "note": ""
  },
  {
   "property": "C130",
   "status": "proved",
   "theorems": [
    "Verif.Rff.C130_groups",
    "Verif.Rff.C130_fit",
    "Verif.Rff.C130_fresh",
    "Verif.Rff.C130_last_tick_refuted"
   ],
   "note": "exact arithmetic; square root and exponential arbitrary"
  },
  {
   "property": "C131",
   "status": "proved",
   "theorems": [
    "Verif.Rff.C131_estimates",
    "Verif.Rff.C131_exact",
    "Verif.Rff.C131_first_tick_refuted"
   ],
   "note": "exact from the second inner tick on; the first inner tick is refuted"
  },
  {
   "property": "C132",
   "status": "proved",
   "theorems": [
    "Verif.Rff.C132_hits",
    "Verif.Rff.C132_charge",
    "Verif.Rff.C132_zero_area_refuted",
    "Verif.Rff.C132_params"
   ],
   "note": "charge for positive threshold; threshold 0 refuted"
  },
  {
   "property": "C133",
   "status": "proved",
   "theorems": [
    "Verif.CandShape.C133_candidates",
    "Verif.CandShape.C133_largest",
    "Verif.CandShape.C133_default_refuted",
    "Verif.CandShape.C133_negative_peak_refuted",
    "Verif.CandShape.C133_offset_refuted"
   ],
   "note": "for MinDeltaTicks >= 1, MinDeltaPeaks >= 0 and start tick 0 (as GausHitFinder calls it); other settings refuted"
  },
  {
   "property": "C134",
   "status": "proved",
   "theorems": [
    "Verif.CandShape.C134_groups"
   ],
   "note": ""
  },
  {
   "property": "C135",
   "status": "proved",
   "theorems": [
    "Verif.CandShape.C135_region",
    "Verif.CandShape.C135_threshold_refuted"
   ],
   "note": ""
  },
  {
   "property": "C136",
   "status": "proved",
   "theorems": [
    "Verif.CandShape.C136_candidates",
    "Verif.CandShape.C136_regions",
    "Verif.CandShape.C136_nothing_missed",
    "Verif.CandShape.C136_old_refuted"
   ],
   "note": "start tick 0 and empty output vector, as GausHitFinder calls it"
  },
  {
   "property": "C137",
   "status": "partial",
   "theorems": [
    "Verif.Blur.C137_image",
    "Verif.Blur.C137_lost_refuted"
   ],
   "note": "image exact for every non-empty list of hits; 'no hit is lost' is false (two hits in one bin)"
  },
  {
   "property": "C138",
   "status": "partial",
   "theorems": [
    "Verif.Blur.C138_safe",
    "Verif.Blur.C138_partition",
    "Verif.Blur.C138_neighbours",
    "Verif.Blur.C138_own_refuted"
   ],
   "note": "safety exactly characterised (undefined iff every bin reaches MinSeed); neighbours counted over all clusters, own cluster refuted"
  },
  {
   "property": "C139",
   "status": "proved",
   "theorems": [
    "Verif.Blur.C139_seeds",
    "Verif.Blur.C139_maximal",
    "Verif.Blur.C139_components",
    "Verif.Blur.C139_low_seed_refuted"
   ],
   "note": "exact connected groups when hole filling, removal and time cut are off and MinSeed > ChargeThreshold; hypothesis needed (witness)"
  },
  {
   "property": "C140",
   "status": "partial",
   "theorems": [
    "Verif.Blur.C140_convolution",
    "Verif.Blur.C140_fits",
    "Verif.Blur.C140_hits",
    "Verif.Blur.C140_dead_ub_refuted",
    "Verif.Blur.C140_dead_weight_refuted",
    "Verif.Blur.C140_sigma_refuted"
   ],
   "note": "exact convolution without dead wires; false with dead wires (access out of range, wrong weights) and for widths that are not whole numbers"
  },
  {
   "property": "C141",
   "status": "proved",
   "theorems": [
    "Verif.Blur.C141_hits"
   ],
   "note": "any blurred image of the same width"
  },
  {
   "property": "C142",
   "status": "partial",
   "theorems": [
    "Verif.MergeAlg.C142_merge",
    "Verif.MergeAlg.C142_hits",
    "Verif.MergeAlg.C142_lost_refuted",
    "Verif.MergeAlg.C142_order_refuted"
   ],
   "note": "any pair decision; loss of small clusters and order dependence of PassCuts are refutations"
  },
  {
   "property": "C143",
   "status": "proved",
   "theorems": [
    "Verif.TimeSort.points_sound",
    "Verif.TimeSort.points_nodup"
   ],
   "note": "geometry and time offsets are parameters"
  },
  {
   "property": "C144",
   "status": "partial",
   "theorems": [
    "Verif.TimeSort.triples_found_partial",
    "Verif.TimeSort.triples_isolated_partial",
    "Verif.TimeSort.triples_complete_refuted",
    "Verif.TimeSort.triples_edge_refuted"
   ],
   "note": "full claim false of the code; exact condition proved for different times"
  },
  {
   "property": "C145",
   "status": "partial",
   "theorems": [
    "Verif.TimeSort.order_independent_partial",
    "Verif.TimeSort.order_refuted",
    "Verif.TimeSort.empty_undefined"
   ],
   "note": "holds for different times per plane; false for equal times; undefined exactly when a plane is empty"
  },
  {
   "property": "C146",
   "status": "proved",
   "theorems": [
    "Verif.MatchTQ.groups_proper"
   ],
   "note": "the Kolmogorov test is an arbitrary decision on pairs"
  },
  {
   "property": "C147",
   "status": "partial",
   "theorems": [
    "Verif.MatchTQ.grouped_passed_partial",
    "Verif.MatchTQ.passing_pair_partial",
    "Verif.MatchTQ.partner_refuted",
    "Verif.MatchTQ.left_out_refuted"
   ],
   "note": "full claim false of the code, both halves refuted"
  },
  {
   "property": "C148",
   "status": "partial",
   "theorems": [
    "Verif.Stitch.links_partial",
    "Verif.Stitch.link_ends_refuted"
   ],
   "note": "the ends named are wrong in a reachable case (refuted)"
  },
  {
   "property": "C149",
   "status": "proved",
   "theorems": [
    "Verif.Stitch.walk_covers",
    "Verif.Stitch.repeats_refuted"
   ],
   "note": "repeats inside a composite are possible (refuted), which the claim does not exclude"
  },
  {
   "property": "C150",
   "status": "partial",
   "theorems": [
    "Verif.Stitch.join_partial",
    "Verif.Stitch.run_partial",
    "Verif.Stitch.join_loses_refuted"
   ],
   "note": "tracks are lost in a reachable case (refuted); no loss when the common track is first or last of the later composite"
  },
  {
   "property": "C151",
   "status": "proved",
   "theorems": [
    "Verif.Stitch.stitched_points",
    "Verif.Stitch.stitched_reached"
   ],
   "note": ""
  },
  {
   "property": "C152",
   "status": "proved",
   "theorems": [
    "Verif.SpAlg.compatible_order",
    "Verif.SpAlg.compatible_two",
    "Verif.SpAlg.compatible_three"
   ],
   "note": "for hits in different planes when their views differ; rational geometry"
  },
  {
   "property": "C153",
   "status": "proved",
   "theorems": [
    "Verif.SpAlg.triples_exact",
    "Verif.SpAlg.pairs_exact",
    "Verif.SpAlg.badSize_never"
   ],
   "note": "planes of parallel, evenly spaced wires"
  },
  {
   "property": "C154",
   "status": "partial",
   "theorems": [
    "Verif.SpAlg.plain_points_partial",
    "Verif.SpAlg.plain_one_tpc_partial",
    "Verif.SpAlg.plain_throws",
    "Verif.SpAlg.repeat_refuted",
    "Verif.SpAlg.throws_refuted"
   ],
   "note": "exact for one TPC; with several TPCs points are repeated and numbers may collide (refuted)"
  },
  {
   "property": "C155",
   "status": "partial",
   "theorems": [
    "Verif.SpAlg.filter_best_partial",
    "Verif.SpAlg.filter_repeat_refuted"
   ],
   "note": "exact for one TPC; refuted for several TPCs"
  },
  {
   "property": "C156",
   "status": "partial",
   "theorems": [
    "Verif.SpAlg.merge_union_partial",
    "Verif.SpAlg.merge_two_view_throws",
    "Verif.SpAlg.merge_tpcs_refuted"
   ],
   "note": "exact for one TPC and three views; merging two-view points always throws; refuted for several TPCs"
  },
  {
   "property": "C157",
   "status": "proved",
   "theorems": [
    "Verif.SpAlg.time_least",
    "Verif.SpAlg.wire_least",
    "Verif.SpAlg.point_least",
    "Verif.SpAlg.wire_errors",
    "Verif.SpAlg.plane_weight_total",
    "Verif.SpAlg.two_hits_on_wires"
   ],
   "note": "rational arithmetic"
  },
  {
   "property": "C158",
   "status": "proved",
   "theorems": [
    "Verif.SpAlg.track_runs",
    "Verif.SpAlg.cut_unique",
    "Verif.SpAlg.track_points"
   ],
   "note": "hits that are not KHitWireX are skipped before the model begins"
  },
  {
   "property": "C159",
   "status": "proved",
   "theorems": [
    "Verif.CMTool.C159_chain_book_describes_final_clusters",
    "Verif.CMTool.C159_edges"
   ],
   "note": "any chain length, any algorithms"
  },
  {
   "property": "C160",
   "status": "proved",
   "theorems": [
    "Verif.CMTool.C160_merged_hits_follow_clusters",
    "Verif.CMTool.C160_append_result",
    "Verif.CMTool.C160_empty_event_refuted"
   ],
   "note": "non-empty events; on an empty event the getters throw after Process (proved as the third theorem)"
  },
  {
   "property": "C161",
   "status": "partial",
   "theorems": [
    "Verif.CMTool.C161_uniform_arrays_partial",
    "Verif.CMTool.C161_mixed_refuted"
   ],
   "note": "true for all-AND and all-OR arrays; false of the code for mixed arrays (witness)"
  },
  {
   "property": "C162",
   "status": "partial",
   "theorems": [
    "Verif.CMTool.C162_priority_modes_partial",
    "Verif.CMTool.C162_product_refuted"
   ],
   "note": "three of four modes; the product mode always answers 0 (proved)"
  },
  {
   "property": "C163",
   "status": "proved",
   "theorems": [
    "Verif.Calo.C163_one_object_per_track_and_plane",
    "Verif.Calo.C163_no_points_undefined"
   ],
   "note": ""
  },
  {
   "property": "C164",
   "status": "proved",
   "theorems": [
    "Verif.Calo.C164_residual_range"
   ],
   "note": ""
  },
  {
   "property": "C165",
   "status": "proved",
   "theorems": [
    "Verif.Mcs.C165_scan_finds_minimum"
   ],
   "note": "exact arithmetic"
  },
  {
   "property": "C166",
   "status": "partial",
   "theorems": [
    "Verif.Mcs.C166_two_stage_partial",
    "Verif.Mcs.C166_no_uncertainty_refuted",
    "Verif.Mcs.C166_all_rejected_refuted"
   ],
   "note": "needs an uncertainty from the coarse scan; otherwise false of the code (momentum -1, or out-of-range read)"
  },
  {
   "property": "C167",
   "status": "proved",
   "theorems": [
    "Verif.Mcs.C167_segmentation",
    "Verif.Mcs.C167_cumulative_lengths"
   ],
   "note": ""
  },
  {
   "property": "C168",
   "status": "partial",
   "theorems": [
    "Verif.Mcs.C168_energy_partial",
    "Verif.Mcs.C168_mip_negative_energy_refuted"
   ],
   "note": "modes 0 and 2; false of the code in mode 1 (witness)"
  },
  {
   "property": "C169",
   "status": "partial",
   "theorems": [
    "Verif.Cosmic.C169_points_partial",
    "Verif.Cosmic.C169_range_partial",
    "Verif.Cosmic.C169_one_hit_per_wire",
    "Verif.Cosmic.C169_plane0_refuted",
    "Verif.Cosmic.C169_swapped_length_refuted",
    "Verif.Cosmic.C169_sptalg1_refuted"
   ],
   "note": "pairing proved for all inputs; undefined behaviour without hits on plane 0, and the path length used is wrong for opposite wire orders (refuted)"
  },
  {
   "property": "C170",
   "status": "partial",
   "theorems": [
    "Verif.Cosmic.C170_positions_partial",
    "Verif.Cosmic.C170_projects_to_foot",
    "Verif.Cosmic.C170_other_side_refuted",
    "Verif.Cosmic.C170_equal_projection_refuted"
   ],
   "note": "preference for the other side and equal projections are false of the code"
  },
  {
   "property": "C171",
   "status": "proved",
   "theorems": [
    "Verif.Cosmic.C171_stitching_gives_components",
    "Verif.Cosmic.C171_no_stitching"
   ],
   "note": ""
  },
  {
   "property": "C172",
   "status": "proved",
   "theorems": [
    "Verif.Cosmic.C172_output_consistent",
    "Verif.Cosmic.C172_every_point_once"
   ],
   "note": ""
  },
  {
   "property": "C173",
   "status": "partial",
   "theorems": [
    "Verif.Cosmic.C173_trajOnly_partial",
    "Verif.Cosmic.C173_sorted_after_association_refuted"
   ],
   "note": "false of the code for unsorted trajectories"
  },
  {
   "property": "C174",
   "status": "proved",
   "theorems": [
    "Verif.Cosmic.C174_drop_repeats"
   ],
   "note": ""
  },
  {
   "property": "C175",
   "status": "proved",
   "theorems": [
    "Verif.Disambig.C175_output",
    "Verif.Disambig.C175_same_time_lost_refuted"
   ],
   "note": "input hits, valid wires of the channel, distinct keys; a second hit with equal channel and time is lost (shown)"
  },
  {
   "property": "C176",
   "status": "proved",
   "theorems": [
    "Verif.Disambig.C176_keeps"
   ],
   "note": ""
  },
  {
   "property": "C177",
   "status": "proved",
   "theorems": [
    "Verif.Disambig.C177_terminates",
    "Verif.Disambig.C177_invalid_wire_refuted"
   ],
   "note": "for channel maps with valid wires; endless loop otherwise (shown)"
  },
  {
   "property": "C178",
   "status": "proved",
   "theorems": [
    "Verif.Disambig.C178_crawl_fixpoint"
   ],
   "note": ""
  },
  {
   "property": "C179",
   "status": "partial",
   "theorems": [
    "Verif.Disambig.C179_overlap_partial",
    "Verif.Disambig.C179_second_collection_partial",
    "Verif.Disambig.C179_overlap_symm_partial",
    "Verif.Disambig.C179_symmetry_refuted",
    "Verif.Disambig.C179_z_offset_refuted"
   ],
   "note": "holds if the second hit is on V or the U and Z offsets are zero; false otherwise (refuted)"
  },
  {
   "property": "C180",
   "status": "proved",
   "theorems": [
    "Verif.Disambig.C180_trivial"
   ],
   "note": ""
  },
  {
   "property": "C181",
   "status": "partial",
   "theorems": [
    "Verif.Disambig.C181_compare_partial",
    "Verif.Disambig.C181_ambiguous_unanimous_refuted"
   ],
   "note": "exact for decided hits; ambiguous hits alone never decide (refuted)"
  },
  {
   "property": "C182",
   "status": "partial",
   "theorems": [
    "Verif.Disambig.C182_endpoint_partial",
    "Verif.Disambig.C182_negative_cone_refuted",
    "Verif.Disambig.C182_reflection_useless",
    "Verif.Disambig.C182_wrap_refuted"
   ],
   "note": "sound always, exact for angles in [0, pi]; false for negative or backward cones (refuted)"
  },
  {
   "property": "C183",
   "status": "partial",
   "theorems": [
    "Verif.Disambig.C183_endpoint_use_partial",
    "Verif.Disambig.C183_two_inductions",
    "Verif.Disambig.C183_no_u",
    "Verif.Disambig.C183_v_only_refuted"
   ],
   "note": "holds for U and for U with V; V alone is never used (refuted)"
  },
  {
   "property": "C184",
   "status": "partial",
   "theorems": [
    "Verif.Disambig.C184_neighbour_partial",
    "Verif.Disambig.C184_wire",
    "Verif.Disambig.C184_covering_window_refuted"
   ],
   "note": "channel wrap exact; window test exact unless the hit is longer than the range (refuted)"
  },
  {
   "property": "C185",
   "status": "proved",
   "theorems": [
    "Verif.Disambig.C185_no_throw"
   ],
   "note": ""
  },
  {
   "property": "C186",
   "status": "proved",
   "theorems": [
    "Verif.ApaGeo.C186_bounds"
   ],
   "note": ""
  },
  {
   "property": "C187",
   "status": "partial",
   "theorems": [
    "Verif.ApaGeo.C187_first_partial",
    "Verif.ApaGeo.C187_sides",
    "Verif.ApaGeo.C187_apaView",
    "Verif.ApaGeo.C187_second_cryostat_refuted",
    "Verif.ApaGeo.C187_crawl_second_cryostat_refuted"
   ],
   "note": "views and sizes exact everywhere; first channel right in the first cryostat only (refuted in others)"
  },
  {
   "property": "C188",
   "status": "partial",
   "theorems": [
    "Verif.ApaGeo.C188_nearest_partial",
    "Verif.ApaGeo.C188_units_refuted"
   ],
   "note": "holds for the range as stored; the range is a length, not a number of wires (refuted)"
  },
  {
   "property": "C189",
   "status": "partial",
   "theorems": [
    "Verif.ApaGeo.C189_line_partial",
    "Verif.ApaGeo.C189_low_wires_refuted",
    "Verif.ApaGeo.C189_far_wires_refuted"
   ],
   "note": "exact unless an extended line begins below wire 10 (refuted)"
  },
  {
   "property": "C190",
   "status": "partial",
   "theorems": [
    "Verif.ApaGeo.C190_crossings_partial",
    "Verif.ApaGeo.C190_best_partial",
    "Verif.ApaGeo.C190_sides",
    "Verif.ApaGeo.C190_other_tpc_refuted"
   ],
   "note": "crossings and sides exact; best crossing exact if there is one in the TPC (refuted otherwise)"
  },
  {
   "property": "C191",
   "status": "proved",
   "theorems": [
    "Verif.Tta.C191_number_of_points",
    "Verif.Tta.C191_bins"
   ],
   "note": ""
  },
  {
   "property": "C192",
   "status": "partial",
   "theorems": [
    "Verif.Tta.C192_always_succeeds",
    "Verif.Tta.C192_single_plane_end_refuted"
   ],
   "note": "the documented failure does not happen: refuted with a witness"
  },
  {
   "property": "C193",
   "status": "partial",
   "theorems": [
    "Verif.Tta.C193_reversed_hits",
    "Verif.Tta.C193_first_of_longest",
    "Verif.Tta.C193_directions_refuted"
   ],
   "note": "the direction half is false of the code: refuted"
  },
  {
   "property": "C194",
   "status": "partial",
   "theorems": [
    "Verif.Tta.C194_points_ordered_partial",
    "Verif.Tta.C194_first_point",
    "Verif.Tta.C194_range_refuted"
   ],
   "note": "true if the first bin has more than four hits; refuted for exactly four"
  },
  {
   "property": "C195",
   "status": "partial",
   "theorems": [
    "Verif.Tta.C195_refused",
    "Verif.Tta.C195_exact_line",
    "Verif.Tta.C195_four_hits_refuted",
    "Verif.Tta.C195_chi_weight_refuted"
   ],
   "note": "the last two parts are false of the code: refuted"
  },
  {
   "property": "C196",
   "status": "proved",
   "theorems": [
    "Verif.VtxFit.C196_closest_pair_first"
   ],
   "note": ""
  },
  {
   "property": "C197",
   "status": "proved",
   "theorems": [
    "Verif.VtxFit.C197_closest_approach",
    "Verif.VtxFit.C197_two_track_impact",
    "Verif.VtxFit.C197_parallel_refuted"
   ],
   "note": "parallel directions, outside the claim, divide by zero"
  },
  {
   "property": "C198",
   "status": "proved",
   "theorems": [
    "Verif.VtxFit.C198_symmetric",
    "Verif.VtxFit.C198_minimum",
    "Verif.VtxFit.C198_covariance"
   ],
   "note": ""
  },
  {
   "property": "C199",
   "status": "partial",
   "theorems": [
    "Verif.VtxFit.C199_failure_unseen_refuted",
    "Verif.VtxFit.C199_two_tracks_refuted",
    "Verif.VtxFit.C199_add_refuted"
   ],
   "note": "false of the code: refuted for every marker value"
  },
  {
   "property": "C200",
   "status": "proved",
   "theorems": [
    "Verif.VtxFit.C200_fit",
    "Verif.VtxFit.C200_given_position",
    "Verif.VtxFit.C200_significance_cut"
   ],
   "note": ""
  },
  {
   "property": "C201",
   "status": "proved",
   "theorems": [
    "Verif.VtxFit.C201_meta"
   ],
   "note": ""
  },
  {
   "property": "C202",
   "status": "proved",
   "theorems": [
    "Verif.VtxFit.C202_chi2_is_gain",
    "Verif.VtxFit.C202_singular",
    "Verif.VtxFit.C202_significance_le_chi2",
    "Verif.VtxFit.C202_symmetric"
   ],
   "note": ""
  },
  {
   "property": "C203",
   "status": "proved",
   "theorems": [
    "Verif.Tag.C203_cosmic_iff",
    "Verif.Tag.C203_same_tracks",
    "Verif.Tag.C203_off",
    "Verif.Tag.C203_again"
   ],
   "note": ""
  },
  {
   "property": "C204",
   "status": "partial",
   "theorems": [
    "Verif.Tag.C204_saved_partial",
    "Verif.Tag.C204_saved_exactly",
    "Verif.Tag.C204_only_met_refuted"
   ],
   "note": "every criterion met is saved; others are saved too because the flags overlap (refuted); exact table proved"
  },
  {
   "property": "C205",
   "status": "partial",
   "theorems": [
    "Verif.Tag.C205_count_partial",
    "Verif.Tag.C205_count_refuted"
   ],
   "note": "between the number of tracks and seven times it; not equal (refuted)"
  },
  {
   "property": "C206",
   "status": "partial",
   "theorems": [
    "Verif.Tag.C206_orientation_partial",
    "Verif.Tag.C206_orientation_refuted"
   ],
   "note": "holds for ends at different heights and without the dE/dx veto; false with it (refuted)"
  },
  {
   "property": "C207",
   "status": "proved",
   "theorems": [
    "Verif.Tag.C207_dimensions"
   ],
   "note": ""
  },
  {
   "property": "C208",
   "status": "proved",
   "theorems": [
    "Verif.Tag.C208_few_values",
    "Verif.Tag.C208_veto"
   ],
   "note": ""
  },
  {
   "property": "C209",
   "status": "partial",
   "theorems": [
    "Verif.Tag.C209_t0_partial",
    "Verif.Tag.C209_zero_t0_refuted"
   ],
   "note": "holds for a T0 different from zero; false for zero (refuted)"
  },
  {
   "property": "C210",
   "status": "partial",
   "theorems": [
    "Verif.Tta.C210_first_bin_partial",
    "Verif.Tta.C210_later_bins_partial",
    "Verif.Tta.C210_overlap_refuted"
   ],
   "note": "true of the first point; later bins skip the hits before the last hit of the bin before: refuted"
  },
  {
   "property": "C211",
   "status": "proved",
   "theorems": [
    "Verif.PMAlg.Tree.C211_shift",
    "Verif.PMAlg.Tree.C211_one_node_branch"
   ],
   "note": "tracks of two nodes or more; C211_one_node_branch shows the condition is needed"
  },
  {
   "property": "C212",
   "status": "proved",
   "theorems": [
    "Verif.PMAlg.Tree.C212_objective",
    "Verif.PMAlg.Tree.C212_update"
   ],
   "note": ""
  },
  {
   "property": "C213",
   "status": "proved",
   "theorems": [
    "Verif.PMAlg.Tree.C213_calls"
   ],
   "note": ""
  },
  {
   "property": "C214",
   "status": "proved",
   "theorems": [
    "Verif.PMAlg.Tree.C214_t0_linear",
    "Verif.PMAlg.Tree.C214_shifts_add"
   ],
   "note": ""
  },
  {
   "property": "C215",
   "status": "proved",
   "theorems": [
    "Verif.PmaStitch.C215_symmetric",
    "Verif.PmaStitch.C215_scale",
    "Verif.PmaStitch.C215_zero_iff",
    "Verif.PmaStitch.C215_no_score"
   ],
   "note": ""
  },
  {
   "property": "C216",
   "status": "proved",
   "theorems": [
    "Verif.PmaStitch.C216_best_shift",
    "Verif.PmaStitch.C216_within"
   ],
   "note": "exact arithmetic: the floating-point loop may miss the last point"
  },
  {
   "property": "C217",
   "status": "partial",
   "theorems": [
    "Verif.PmaStitch.C217_best_partner",
    "Verif.PmaStitch.C217_score_ends",
    "Verif.PmaStitch.C217_first_at_surface_partial",
    "Verif.PmaStitch.C217_second_at_surface_refuted",
    "Verif.PmaStitch.C217_directions_refuted"
   ],
   "note": "the choice is proved; the position of the second end and the directions are refuted"
  },
  {
   "property": "C218",
   "status": "partial",
   "theorems": [
    "Verif.PmaStitch.C218_ends_meet",
    "Verif.PmaStitch.C218_same_tree_refuted"
   ],
   "note": "joining proved; for two tracks of one tree the shifts cancel: refuted"
  },
  {
   "property": "C219",
   "status": "partial",
   "theorems": [
    "Verif.PmaStitch.C219_rounds_partial"
   ],
   "note": "only if no flip adds tracks to the collection"
  },
  {
   "property": "C220",
   "status": "proved",
   "theorems": [
    "Verif.PmaStitch.C220_cathode",
    "Verif.PmaStitch.C220_lookup"
   ],
   "note": ""
  },
  {
   "property": "C221",
   "status": "proved",
   "theorems": [
    "Verif.EmShower.C221_associations",
    "Verif.EmShower.C221_ignored_left_out"
   ],
   "note": "exact characterisation of both maps"
  },
  {
   "property": "C222",
   "status": "partial",
   "theorems": [
    "Verif.EmShower.C222_showers_partial",
    "Verif.EmShower.C222_no_repeat",
    "Verif.EmShower.C222_disjoint_iff",
    "Verif.EmShower.C222_one_shower_refuted"
   ],
   "note": "one shower per cluster is false of the code (refuted with a witness; disjointness characterised exactly); the rest is proved"
  },
  {
   "property": "C223",
   "status": "partial",
   "theorems": [
    "Verif.EmShower.C223_mean_share",
    "Verif.EmShower.C223_bad_plane",
    "Verif.EmShower.C223_every_shower_refuted"
   ],
   "note": "proved for the first shower; false for the others (refuted)"
  },
  {
   "property": "C224",
   "status": "partial",
   "theorems": [
    "Verif.EmShower.C224_tracks_found",
    "Verif.EmShower.C224_output_partial",
    "Verif.EmShower.C224_numbers_refuted",
    "Verif.EmShower.C224_selection_refuted",
    "Verif.EmShower.C224_space_points_refuted",
    "Verif.EmShower.C224_point_numbers_partial"
   ],
   "note": "clusters and tracks proved; numbers, selection and space points are false of the code (refuted)"
  },
  {
   "property": "C225",
   "status": "partial",
   "theorems": [
    "Verif.EmShower.C225_order_partial",
    "Verif.EmShower.C225_keeps_all_refuted"
   ],
   "note": "order proved; hits of equal projection are lost (refuted)"
  },
  {
   "property": "C226",
   "status": "partial",
   "theorems": [
    "Verif.EmShower.C226_no_loss",
    "Verif.EmShower.C226_no_throw",
    "Verif.EmShower.C226_one_hit_partial",
    "Verif.EmShower.C226_two_hits_refuted",
    "Verif.EmShower.C226_moved_few"
   ],
   "note": "no loss and no failure proved; the right hits are moved only if there is one (refuted for two)"
  },
  {
   "property": "C227",
   "status": "partial",
   "theorems": [
    "Verif.EmShower.C227_result",
    "Verif.EmShower.C227_finds_partial",
    "Verif.EmShower.C227_widths",
    "Verif.EmShower.C227_equal_widths_refuted",
    "Verif.EmShower.C227_desired_plane_refuted"
   ],
   "note": "proved for different widths; equal widths and a desired plane refuted"
  },
  {
   "property": "C228",
   "status": "proved",
   "theorems": [
    "Verif.EmShower.C228_worst_plane",
    "Verif.EmShower.C228_track_planes"
   ],
   "note": "for all wire widths and numbers of hits"
  },
  {
   "property": "C229",
   "status": "partial",
   "theorems": [
    "Verif.EmShower.C229_start_partial",
    "Verif.EmShower.C229_distinct_refuted",
    "Verif.EmShower.C229_two_hits_refuted",
    "Verif.EmShower.C229_wire_all"
   ],
   "note": "different hits and at least two are false of the code (refuted); the rest is proved"
  },
  {
   "property": "C230",
   "status": "partial",
   "theorems": [
    "Verif.EmShower.C230_points",
    "Verif.EmShower.C230_once_partial",
    "Verif.EmShower.C230_complete_two",
    "Verif.EmShower.C230_once_refuted"
   ],
   "note": "the hit of a third plane can be used again (refuted); the rest is proved"
  },
  {
   "property": "C231",
   "status": "partial",
   "theorems": [
    "Verif.EmShower.C231_dqdx_partial",
    "Verif.EmShower.C231_long_pitch",
    "Verif.EmShower.C231_no_track",
    "Verif.EmShower.C231_equal_pitch_refuted",
    "Verif.EmShower.C231_no_pitch_refuted"
   ],
   "note": "pitch 0 or equal to the length refuted; the rest is proved"
  },
  {
   "property": "C232",
   "status": "partial",
   "theorems": [
    "Verif.EmShower.C232_start",
    "Verif.EmShower.C232_directions_partial",
    "Verif.EmShower.C232_directions_refuted",
    "Verif.EmShower.C232_one_point_refuted"
   ],
   "note": "start proved; directions only for tracks that are not reversed (refuted for the others)"
  },
  {
   "property": "C233",
   "status": "partial",
   "theorems": [
    "Verif.EmShower.C233_shower_partial",
    "Verif.EmShower.C233_throws_iff",
    "Verif.EmShower.C233_refuted"
   ],
   "note": "throws exactly if a plane with hits has no initial hits (refuted); the rest is proved"
  },
  {
   "property": "C234",
   "status": "proved",
   "theorems": [
    "Verif.EmShower.C234_two_planes",
    "Verif.EmShower.C234_start",
    "Verif.EmShower.C234_symmetric",
    "Verif.EmShower.C234_best_plane"
   ],
   "note": "with the order of the points relevant only for equal distances"
  },
  {
   "property": "C235",
   "status": "proved",
   "theorems": [
    "Verif.EmShower.C235_order",
    "Verif.EmShower.C235_tpc",
    "Verif.EmShower.C235_initial"
   ],
   "note": "for every number of passes"
  },
  {
   "property": "C236",
   "status": "proved",
   "theorems": [
    "Verif.EmShower.C236_fit",
    "Verif.EmShower.C236_no_fit",
    "Verif.EmShower.C236_gradient"
   ],
   "note": "exact arithmetic"
  },
  {
   "property": "C237",
   "status": "proved",
   "theorems": [
    "Verif.EmShower.C237_clean"
   ],
   "note": "exact characterisation"
  },
  {
   "property": "C238",
   "status": "proved",
   "theorems": [
    "Verif.EmShower.C238_centre"
   ],
   "note": "exact arithmetic"
  },
  {
   "property": "C239",
   "status": "partial",
   "theorems": [
    "Verif.EmShower.C239_segment_partial",
    "Verif.EmShower.C239_monotone",
    "Verif.EmShower.C239_last_refuted"
   ],
   "note": "the last hit is in one more segment (refuted for every shower)"
  },
  {
   "property": "C240",
   "status": "partial",
   "theorems": [
    "Verif.Gaus.C240_pieces",
    "Verif.Gaus.C240_covers_partial",
    "Verif.Gaus.C240_capped",
    "Verif.Gaus.C240_area",
    "Verif.Gaus.C240_refuted"
   ],
   "note": "Coverage and the bound LongMaxHits are false of the code when the number is limited (exact condition proved)."
  },
  {
   "property": "C241",
   "status": "partial",
   "theorems": [
    "Verif.Gaus.C241_windows_partial",
    "Verif.Gaus.C241_extent",
    "Verif.Gaus.C241_refuted"
   ],
   "note": "Proved for peaks in order of time with amplitudes, inside the pulse, before tick 9999; false after a skipped peak."
  },
  {
   "property": "C242",
   "status": "partial",
   "theorems": [
    "Verif.Gaus.C242_sums_partial",
    "Verif.Gaus.C242_long",
    "Verif.Gaus.C242_refuted"
   ],
   "note": "Proved for peaks in order of time, and for all long pulses before tick 9999; false for peaks out of order."
  },
  {
   "property": "C243",
   "status": "partial",
   "theorems": [
    "Verif.Gaus.C243_filter_partial",
    "Verif.Gaus.C243_good",
    "Verif.Gaus.C243_refuted"
   ],
   "note": "False with several largest hits of which only some pass the cuts; proved otherwise."
  },
  {
   "property": "C244",
   "status": "partial",
   "theorems": [
    "Verif.Gaus.C244_schedule",
    "Verif.Gaus.interleave_exists",
    "Verif.Gaus.C244_refuted"
   ],
   "note": "The order of the collection depends on the schedule; the multiset and the order within a task do not."
  },
  {
   "property": "C245",
   "status": "partial",
   "theorems": [
    "Verif.Gaus.C245_products_partial",
    "Verif.Gaus.C245_fillOut",
    "Verif.Gaus.C245_refuted"
   ],
   "note": "False with a name and without the filter."
  },
  {
   "property": "C246",
   "status": "partial",
   "theorems": [
    "Verif.Gaus.C246_long_partial",
    "Verif.Gaus.C246_error_value",
    "Verif.Gaus.C246_refuted"
   ],
   "note": "Charge of long pulses that are not limited; the error is not an error of the charge."
  },
  {
   "property": "C247",
   "status": "partial",
   "theorems": [
    "Verif.Gaus.C247_limits_partial",
    "Verif.Gaus.C247_identity",
    "Verif.Gaus.C247_refuted"
   ],
   "note": "False for narrow candidates and for candidates below the baseline."
  },
  {
   "property": "C248",
   "status": "partial",
   "theorems": [
    "Verif.Gaus.C248_nearest_partial",
    "Verif.Gaus.C248_refuted"
   ],
   "note": "False once a candidate is before a peak."
  },
  {
   "property": "C249",
   "status": "partial",
   "theorems": [
    "Verif.Gaus.C249_multiplicity_partial",
    "Verif.Gaus.C249_atMost",
    "Verif.Gaus.C249_other_pulses",
    "Verif.Gaus.C249_refuted"
   ],
   "note": "False with the refit."
  },
  {
   "property": "C250",
   "status": "proved",
   "theorems": [
    "Verif.Gnocchi.C250_partition",
    "Verif.Gnocchi.C250_individual"
   ],
   "note": ""
  },
  {
   "property": "C251",
   "status": "partial",
   "theorems": [
    "Verif.Gnocchi.C251_snippets",
    "Verif.Gnocchi.C251_refuted"
   ],
   "note": "same wire number, start and end proved; hits of different TPCs are merged (refuted)"
  },
  {
   "property": "C252",
   "status": "partial",
   "theorems": [
    "Verif.Gnocchi.C252_conserved",
    "Verif.Gnocchi.C252_refuted"
   ],
   "note": "proved for the methods with integrals; false for the sum of the region of interest"
  },
  {
   "property": "C253",
   "status": "partial",
   "theorems": [
    "Verif.Gnocchi.C253_residual",
    "Verif.Gnocchi.C253_reverse_partial",
    "Verif.Gnocchi.C253_monotone",
    "Verif.Gnocchi.C253_refuted"
   ],
   "note": "false if the two ways to match the ends are equally long"
  },
  {
   "property": "C254",
   "status": "proved",
   "theorems": [
    "Verif.Gnocchi.C254_objects",
    "Verif.Gnocchi.C254_rows"
   ],
   "note": ""
  },
  {
   "property": "C255",
   "status": "partial",
   "theorems": [
    "Verif.Gnocchi.C255_lookup_partial",
    "Verif.Gnocchi.C255_refuted"
   ],
   "note": "for hits with one entry; false with several"
  },
  {
   "property": "C256",
   "status": "partial",
   "theorems": [
    "Verif.Gnocchi.C256_direction_partial",
    "Verif.Gnocchi.C256_short",
    "Verif.Gnocchi.C256_refuted"
   ],
   "note": "by the first and last four hits; false for up to four hits"
  },
  {
   "property": "C257",
   "status": "partial",
   "theorems": [
    "Verif.Gnocchi.C257_exact",
    "Verif.Gnocchi.C257_closest_partial",
    "Verif.Gnocchi.C257_count",
    "Verif.Gnocchi.C257_refuted"
   ],
   "note": "exact characterisation; the claim is false"
  },
  {
   "property": "C258",
   "status": "partial",
   "theorems": [
    "Verif.Gnocchi.C258_nearest",
    "Verif.Gnocchi.C258_refuted"
   ],
   "note": "false for space points at the same distance"
  },
  {
   "property": "C259",
   "status": "partial",
   "theorems": [
    "Verif.Gnocchi.C259_rows_partial",
    "Verif.Gnocchi.C259_refuted"
   ],
   "note": "the code leaves the pitch out and writes rows of zeros"
  },
  {
   "property": "C260",
   "status": "partial",
   "theorems": [
    "Verif.CaloAlg.C260_inverse",
    "Verif.CaloAlg.C260_strictMono",
    "Verif.CaloAlg.C260_nonneg_partial",
    "Verif.CaloAlg.C260_zero",
    "Verif.CaloAlg.C260_refuted"
   ],
   "note": "energy for no charge unless the parameter is one"
  },
  {
   "property": "C261",
   "status": "partial",
   "theorems": [
    "Verif.CaloAlg.C261_inverse",
    "Verif.CaloAlg.C261_below_partial",
    "Verif.CaloAlg.C261_above",
    "Verif.CaloAlg.C261_refuted"
   ],
   "note": "negative above the pole"
  },
  {
   "property": "C262",
   "status": "proved",
   "theorems": [
    "Verif.CaloAlg.C262_lifetime",
    "Verif.CaloAlg.C262_recovers"
   ],
   "note": ""
  },
  {
   "property": "C263",
   "status": "proved",
   "theorems": [
    "Verif.CCrawl.C263_stored_iff",
    "Verif.CCrawl.C263_stored"
   ],
   "note": ""
  },
  {
   "property": "C264",
   "status": "partial",
   "theorems": [
    "Verif.CCrawl.C264_failed_partial",
    "Verif.CCrawl.C264_refuted"
   ],
   "note": "marks set before the failure stay (refuted); clusters, numbers and marks of used hits do not change"
  },
  {
   "property": "C265",
   "status": "partial",
   "theorems": [
    "Verif.CCrawl.C265_reads_partial",
    "Verif.CCrawl.C265_refuted"
   ],
   "note": "false for clusters of two hits"
  },
  {
   "property": "C266",
   "status": "proved",
   "theorems": [
    "Verif.CCrawl.C266_kill_restore",
    "Verif.CCrawl.C266_refuted"
   ],
   "note": "C266_refuted shows the limit: restoring after the hits were used again breaks the invariant (no call does that, C267)"
  },
  {
   "property": "C267",
   "status": "proved",
   "theorems": [
    "Verif.CCrawl.C267_history"
   ],
   "note": ""
  },
  {
   "property": "C268",
   "status": "partial",
   "theorems": [
    "Verif.CCrawl.C268_marks_partial",
    "Verif.CCrawl.C268_refuted"
   ],
   "note": "holds for histories without a failed store; false after one"
  },
  {
   "property": "C269",
   "status": "partial",
   "theorems": [
    "Verif.CCrawl.C269_split_partial",
    "Verif.CCrawl.C269_lost",
    "Verif.CCrawl.C269_refuted"
   ],
   "note": "exact for at least three hits before and four after the split; otherwise false (cluster lost, or an unrelated one deleted)"
  },
  {
   "property": "C270",
   "status": "proved",
   "theorems": [
    "Verif.CCrawl.C270_merged",
    "Verif.CCrawl.C270_limit"
   ],
   "note": "C270_limit: at 32767 clusters both are lost"
  },
  {
   "property": "C271",
   "status": "partial",
   "theorems": [
    "Verif.CCrawl.C271_overlap_begin_partial",
    "Verif.CCrawl.C271_refuted"
   ],
   "note": "the end vertex is wrong"
  },
  {
   "property": "C272",
   "status": "partial",
   "theorems": [
    "Verif.CCrawl.C272_remove_partial",
    "Verif.CCrawl.C272_refuted"
   ],
   "note": "for exact marks (C268); stray marks make it look at a cluster that does not exist"
  },
  {
   "property": "C273",
   "status": "partial",
   "theorems": [
    "Verif.CCrawl.C273_shorten_partial",
    "Verif.CCrawl.C273_replaced",
    "Verif.CCrawl.C273_refuted"
   ],
   "note": "if the store succeeds; false otherwise"
  },
  {
   "property": "C274",
   "status": "proved",
   "theorems": [
    "Verif.CCrawl.C274_duplicates"
   ],
   "note": ""
  },
  {
   "property": "C275",
   "status": "proved",
   "theorems": [
    "Verif.CCrawl.C275_ranges",
    "Verif.CCrawl.C275_first_last"
   ],
   "note": ""
  },
  {
   "property": "C276",
   "status": "proved",
   "theorems": [
    "Verif.CCrawl.C276_dead"
   ],
   "note": ""
  },
  {
   "property": "C277",
   "status": "partial",
   "theorems": [
    "Verif.CCrawl.C277_killed_partial",
    "Verif.CCrawl.C277_close_partial",
    "Verif.CCrawl.C277_first_stays",
    "Verif.CCrawl.C277_refuted"
   ],
   "note": "the closeness of hits is judged on different wires if the earlier cluster ends at the higher wire"
  },
  {
   "property": "C278",
   "status": "partial",
   "theorems": [
    "Verif.CCrawl.C278_merged_partial",
    "Verif.CCrawl.C278_exists",
    "Verif.CCrawl.C278_refuted"
   ],
   "note": "a merge keeps the charge; hits are lost if the signal sum is zero"
  },
  {
   "property": "C279",
   "status": "proved",
   "theorems": [
    "Verif.KalFit.C279_masks"
   ],
   "note": ""
  },
  {
   "property": "C280",
   "status": "proved",
   "theorems": [
    "Verif.KalFit.C280_placed"
   ],
   "note": "Planes below MaxPlanes assumed for the sorting by plane."
  },
  {
   "property": "C281",
   "status": "partial",
   "theorems": [
    "Verif.KalFit.C281_not_used_partial",
    "Verif.KalFit.C281_refuted"
   ],
   "note": "False with pickBestHitOnWire."
  },
  {
   "property": "C282",
   "status": "partial",
   "theorems": [
    "Verif.KalFit.C282_row_partial",
    "Verif.KalFit.C282_refuted"
   ],
   "note": "NoPoint is not looked at."
  },
  {
   "property": "C283",
   "status": "proved",
   "theorems": [
    "Verif.KalFit.C283_plane_order"
   ],
   "note": ""
  },
  {
   "property": "C284",
   "status": "proved",
   "theorems": [
    "Verif.KalFit.C284_enough"
   ],
   "note": ""
  },
  {
   "property": "C285",
   "status": "proved",
   "theorems": [
    "Verif.KalFit.C285_cleaned",
    "Verif.KalFit.C285_ends"
   ],
   "note": ""
  },
  {
   "property": "C286",
   "status": "partial",
   "theorems": [
    "Verif.KalFit.C286_nothing_lost_partial",
    "Verif.KalFit.C286_refuted"
   ],
   "note": "False with sortOutputHitsMinLength and an excluded first point."
  },
  {
   "property": "C287",
   "status": "partial",
   "theorems": [
    "Verif.KalFit.C287_points",
    "Verif.KalFit.C287_momentum_partial",
    "Verif.KalFit.C287_refuted"
   ],
   "note": "Momentum only up to the first point that is not valid."
  },
  {
   "property": "C288",
   "status": "partial",
   "theorems": [
    "Verif.KalFit.C288_both",
    "Verif.KalFit.C288_single",
    "Verif.KalFit.C288_refuted"
   ],
   "note": "The backward fit starts at the vertex."
  },
  {
   "property": "C289",
   "status": "partial",
   "theorems": [
    "Verif.KalFit.C289_masks_grow_partial",
    "Verif.KalFit.C289_first_partial",
    "Verif.KalFit.C289_refuted"
   ],
   "note": "False: masks of the first attempt are kept."
  },
  {
   "property": "C290",
   "status": "partial",
   "theorems": [
    "Verif.KalFit.C290_all_hits_partial",
    "Verif.KalFit.C286_refuted"
   ],
   "note": "False with sortOutputHitsMinLength."
  },
  {
   "property": "C291",
   "status": "proved",
   "theorems": [
    "Verif.Book.C291_matrix",
    "Verif.Book.C291_plane",
    "Verif.Book.C291_number"
   ],
   "note": "All histories of calls on a new object."
  },
  {
   "property": "C292",
   "status": "partial",
   "theorems": [
    "Verif.Book.C292_read_partial",
    "Verif.Book.C292_refuted"
   ],
   "note": "True of booked keys and of keys never named; false of keys that a refused setMatrix or bookNumbers has named (null pointer)."
  },
  {
   "property": "C293",
   "status": "partial",
   "theorems": [
    "Verif.Book.C293_matrices",
    "Verif.Book.C293_planes",
    "Verif.Book.C293_numbers_partial",
    "Verif.Book.C293_refuted"
   ],
   "note": "Proved for matrices and planes; bookNumbers tests the planes: what it does is proved, the claim is refuted."
  },
  {
   "property": "C294",
   "status": "partial",
   "theorems": [
    "Verif.Book.C294_roundtrip_partial",
    "Verif.Book.C294_refuted"
   ],
   "note": "Proved unless a key is used for numbers and planes; then reading back throws (refuted)."
  },
  {
   "property": "C295",
   "status": "partial",
   "theorems": [
    "Verif.Book.C295_reset_partial",
    "Verif.Book.C295_refuted"
   ],
   "note": "Proved unless a key is used for numbers and planes; then it throws (refuted)."
  },
  {
   "property": "C296",
   "status": "proved",
   "theorems": [
    "Verif.Book.C296_failed"
   ],
   "note": "All histories."
  },
  {
   "property": "C297",
   "status": "partial",
   "theorems": [
    "Verif.Book.C297_copy_partial",
    "Verif.Book.C297_refuted"
   ],
   "note": "Proved when no entry is null; after GFDaf's calls copying crashes (refuted)."
  },
  {
   "property": "C298",
   "status": "proved",
   "theorems": [
    "Verif.FFTHit.C298_peaks"
   ],
   "note": "All signals."
  },
  {
   "property": "C299",
   "status": "proved",
   "theorems": [
    "Verif.FFTHit.C299_windows"
   ],
   "note": "All signals."
  },
  {
   "property": "C300",
   "status": "partial",
   "theorems": [
    "Verif.FFTHit.C300_disjoint_partial",
    "Verif.FFTHit.C300_refuted"
   ],
   "note": "True when no two neighbouring ticks are equal; false otherwise (witness)."
  },
  {
   "property": "C301",
   "status": "proved",
   "theorems": [
    "Verif.FFTHit.C301_groups"
   ],
   "note": "All signals."
  },
  {
   "property": "C302",
   "status": "partial",
   "theorems": [
    "Verif.FFTHit.C302_window_partial",
    "Verif.FFTHit.C302_refuted"
   ],
   "note": "True with a threshold that is not negative; with a negative one the search leaves the signal."
  },
  {
   "property": "C303",
   "status": "partial",
   "theorems": [
    "Verif.FFTHit.C303_hits_partial",
    "Verif.FFTHit.C303_refuted"
   ],
   "note": "All but the positive charge, which is false (witness)."
  },
  {
   "property": "C305",
   "status": "partial",
   "theorems": [
    "Verif.TTHit.C305_reads_partial",
    "Verif.TTHit.C305_refuted"
   ],
   "note": "False: one tick beyond the end is read; that it is never more is proved."
  },
  {
   "property": "C306",
   "status": "partial",
   "theorems": [
    "Verif.TTHit.C306_centre_partial",
    "Verif.TTHit.C306_refuted"
   ],
   "note": "True for odd, false for even widths."
  },
  {
   "property": "C307",
   "status": "proved",
   "theorems": [
    "Verif.RawHit.C307_runs"
   ],
   "note": "All waveforms."
  },
  {
   "property": "C308",
   "status": "proved",
   "theorems": [
    "Verif.RawHit.C308_peak_charge"
   ],
   "note": "All waveforms."
  },
  {
   "property": "C309",
   "status": "partial",
   "theorems": [
    "Verif.RawHit.C309_width_partial",
    "Verif.RawHit.C309_refuted"
   ],
   "note": "True if no tick of the widened run is negative; false otherwise (witness)."
  },
  {
   "property": "C310",
   "status": "partial",
   "theorems": [
    "Verif.RawHit.C310_summed_partial",
    "Verif.RawHit.C310_refuted"
   ],
   "note": "False: the last tick is missing; that it is only that one is proved."
  },
  {
   "property": "C311",
   "status": "proved",
   "theorems": [
    "Verif.RawHit.C311_dips"
   ],
   "note": "All waveforms."
  },
  {
   "property": "C312",
   "status": "partial",
   "theorems": [
    "Verif.RawHit.C312_charge_partial",
    "Verif.RawHit.C312_refuted"
   ],
   "note": "False: the first tick counts twice; that this is the only difference is proved."
  },
  {
   "property": "C313",
   "status": "partial",
   "theorems": [
    "Verif.RawHit.C313_time_partial",
    "Verif.RawHit.C313_refuted"
   ],
   "note": "True with a positive tick before and no tick of exactly zero; false otherwise (witnesses)."
  },
  {
   "property": "C314",
   "status": "proved",
   "theorems": [
    "Verif.CCHit.C314_regions",
    "Verif.CCHit.C314_end_refuted"
   ],
   "note": ""
  },
  {
   "property": "C315",
   "status": "partial",
   "theorems": [
    "Verif.CCHit.C315_hit_partial",
    "Verif.CCHit.C315_thousand_refuted"
   ],
   "note": "false for a region of 1000 ticks"
  },
  {
   "property": "C316",
   "status": "proved",
   "theorems": [
    "Verif.CCHit.C316_group"
   ],
   "note": ""
  },
  {
   "property": "C318",
   "status": "proved",
   "theorems": [
    "Verif.CCHit.C318_summed"
   ],
   "note": ""
  },
  {
   "property": "C319",
   "status": "proved",
   "theorems": [
    "Verif.CCHit.C319_crude"
   ],
   "note": ""
  },
  {
   "property": "C320",
   "status": "partial",
   "theorems": [
    "Verif.CCHit.C320_stats_partial",
    "Verif.CCHit.C320_refuted"
   ],
   "note": "false with a region of 1000 ticks"
  },
  {
   "property": "C321",
   "status": "proved",
   "theorems": [
    "Verif.CCHit.C321_run"
   ],
   "note": ""
  },
  {
   "property": "C322",
   "status": "partial",
   "theorems": [
    "Verif.LineMerge.C322_groups_partial",
    "Verif.LineMerge.C322_hits_partial",
    "Verif.LineMerge.C322_refuted"
   ],
   "note": "Proved when clusters of a view are on one plane; refuted otherwise: the second of two matching clusters on different planes is lost."
  },
  {
   "property": "C323",
   "status": "proved",
   "theorems": [
    "Verif.LineMerge.C323_once"
   ],
   "note": ""
  },
  {
   "property": "C324",
   "status": "partial",
   "theorems": [
    "Verif.LineMerge.C322_groups_partial",
    "Verif.LineMerge.C324_end_refuted"
   ],
   "note": "Start proved (in MadeOf); the end is the lowest end wire, so the spanning claim is refuted."
  },
  {
   "property": "C325",
   "status": "partial",
   "theorems": [
    "Verif.LineMerge.C322_groups_partial",
    "Verif.LineMerge.C325_order_refuted"
   ],
   "note": "Parts stay consecutive (MadeOf.blocks); their order is refuted."
  },
  {
   "property": "C326",
   "status": "proved",
   "theorems": [
    "Verif.LineMerge.C326_symmetric",
    "Verif.LineMerge.C326_criterion"
   ],
   "note": ""
  },
  {
   "property": "C327",
   "status": "proved",
   "theorems": [
    "Verif.LineMerge.C327_unchanged"
   ],
   "note": ""
  },
  {
   "property": "C328",
   "status": "partial",
   "theorems": [
    "Verif.LineMerge.C328_none_partial",
    "Verif.LineMerge.C328_refuted"
   ],
   "note": "Without matching clusters nothing changes; completeness and order independence refuted."
  },
  {
   "property": "C329",
   "status": "proved",
   "theorems": [
    "Verif.SmallClus.C329_once",
    "Verif.SmallClus.C329_nonempty"
   ],
   "note": "No empty cluster given hits within the radius of themselves."
  },
  {
   "property": "C330",
   "status": "partial",
   "theorems": [
    "Verif.SmallClus.C330_ends",
    "Verif.SmallClus.C330_endless",
    "Verif.SmallClus.C330_refuted"
   ],
   "note": "Ends for a positive radius; refuted for a radius of 0 or less."
  },
  {
   "property": "C331",
   "status": "proved",
   "theorems": [
    "Verif.SmallClus.C331_small"
   ],
   "note": ""
  },
  {
   "property": "C332",
   "status": "partial",
   "theorems": [
    "Verif.SmallClus.C332_shape",
    "Verif.SmallClus.C332_apart",
    "Verif.SmallClus.C332_refuted",
    "Verif.SmallClus.C332_tpc_refuted"
   ],
   "note": "The shape is proved; near hits in one cluster, and one TPC per cluster, are refuted."
  },
  {
   "property": "C333",
   "status": "partial",
   "theorems": [
    "Verif.SmallClus.C333_ids_partial",
    "Verif.SmallClus.C333_refuted"
   ],
   "note": "Unique with fewer than 100 small clusters per plane; refuted otherwise."
  },
  {
   "property": "C334",
   "status": "partial",
   "theorems": [
    "Verif.SmallClus.C334_products",
    "Verif.SmallClus.C334_refuted"
   ],
   "note": "Exactly the events without hits get no products."
  },
  {
   "property": "C335",
   "status": "proved",
   "theorems": [
    "Verif.SmallClus.C335_energy",
    "Verif.SmallClus.C335_order",
    "Verif.SmallClus.C335_additive",
    "Verif.SmallClus.C335_mono"
   ],
   "note": "C335_refuted: without hits the intercept is returned."
  },
  {
   "property": "C304",
   "status": "partial",
   "theorems": [
    "Verif.TTHit.C304_hit_partial",
    "Verif.TTHit.C304_wire",
    "Verif.TTHit.C304_width",
    "Verif.TTHit.C304_refuted"
   ],
   "note": "True unless the charge is -999 (witness)."
  },
  {
   "property": "C317",
   "status": "proved",
   "theorems": [
    "Verif.CCHit.C317_sane",
    "Verif.CCHit.C317_bumps",
    "Verif.CCHit.C317_stale_refuted"
   ],
   "note": "false for a limit above 9999, which is not in the range of the claim"
  },
  {
   "property": "C336",
   "status": "partial",
   "theorems": [
    "Verif.CMAlgos.C336_symmetric_partial",
    "Verif.CMAlgos.C336_com_partial",
    "Verif.CMAlgos.C336_separate_refuted",
    "Verif.CMAlgos.C336_com_refuted"
   ],
   "note": "Symmetry proved for twelve algorithms and for CenterOfMass when small and big exclude each other; false for AngleSeparate and for CenterOfMass otherwise (refuted)."
  },
  {
   "property": "C337",
   "status": "partial",
   "theorems": [
    "Verif.CMAlgos.C337_criterion",
    "Verif.CMAlgos.C337_refuted"
   ],
   "note": "Criterion proved for the difference of the numbers; directions are not compared modulo a full turn (refuted)."
  },
  {
   "property": "C338",
   "status": "proved",
   "theorems": [
    "Verif.CMAlgos.C338_complement",
    "Verif.CMAlgos.C338_align"
   ],
   "note": ""
  },
  {
   "property": "C339",
   "status": "partial",
   "theorems": [
    "Verif.CMAlgos.C339_criterion_partial",
    "Verif.CMAlgos.C339_same",
    "Verif.CMAlgos.C339_default",
    "Verif.CMAlgos.C339_refuted"
   ],
   "note": "Proved when no number of hits is small and big; false otherwise (refuted)."
  },
  {
   "property": "C340",
   "status": "partial",
   "theorems": [
    "Verif.CMAlgos.C340_least_partial",
    "Verif.CMAlgos.C340_upper",
    "Verif.CMAlgos.C340_refuted"
   ],
   "note": "Proved for squared lengths of at least 0.1; false for shorter segments (refuted)."
  },
  {
   "property": "C341",
   "status": "proved",
   "theorems": [
    "Verif.CMAlgos.C341_com",
    "Verif.CMAlgos.C341_refuted"
   ],
   "note": ""
  },
  {
   "property": "C342",
   "status": "proved",
   "theorems": [
    "Verif.CMAlgos.C342_value",
    "Verif.CMAlgos.C342_order"
   ],
   "note": ""
  },
  {
   "property": "C343",
   "status": "partial",
   "theorems": [
    "Verif.CMAlgos.C343_range",
    "Verif.CMAlgos.C343_overlap_partial",
    "Verif.CMAlgos.C343_refuted"
   ],
   "note": "Value and order proved when all clusters overlap in the sense of the code; order dependence in general (refuted)."
  },
  {
   "property": "C344",
   "status": "partial",
   "theorems": [
    "Verif.CMAlgos.C344_range",
    "Verif.CMAlgos.C344_refuted",
    "Verif.CMAlgos.C344_zero_refuted"
   ],
   "note": "Range proved; independence of the order and of a shift is false (refuted)."
  },
  {
   "property": "C345",
   "status": "proved",
   "theorems": [
    "Verif.CMAlgos.C345_criterion",
    "Verif.CMAlgos.C345_order"
   ],
   "note": ""
  },
  {
   "property": "C346",
   "status": "proved",
   "theorems": [
    "Verif.CMAlgos.C346_priority",
    "Verif.CMAlgos.C346_tracks",
    "Verif.CMAlgos.C346_refuted"
   ],
   "note": "For non-negative cuts; a negative cut on the charge is shown not to work."
  },
  {
   "property": "C347",
   "status": "partial",
   "theorems": [
    "Verif.DPHit.C347_candidates_partial",
    "Verif.DPHit.C347_refuted",
    "Verif.DPHit.C347_max_refuted"
   ],
   "note": "Proved up to the last tick: the end of a candidate may be one after the region and its signal may be above the maximum (refuted by witnesses)."
  },
  {
   "property": "C348",
   "status": "partial",
   "theorems": [
    "Verif.DPHit.C348_positive_partial",
    "Verif.DPHit.C348_refuted"
   ],
   "note": "Proved where the search stepped; refuted for the short remainders."
  },
  {
   "property": "C349",
   "status": "partial",
   "theorems": [
    "Verif.DPHit.C349_complete_partial",
    "Verif.DPHit.C349_refuted"
   ],
   "note": "Proved for stretches longer than four ticks; shorter ones are not searched (refuted)."
  },
  {
   "property": "C350",
   "status": "proved",
   "theorems": [
    "Verif.DPHit.C350_groups"
   ],
   "note": ""
  },
  {
   "property": "C351",
   "status": "proved",
   "theorems": [
    "Verif.DPHit.C350_groups"
   ],
   "note": "The chain conditions of the groups and between groups are the criterion in both directions."
  },
  {
   "property": "C352",
   "status": "proved",
   "theorems": [
    "Verif.DPHit.C352_fluctuations"
   ],
   "note": ""
  },
  {
   "property": "C353",
   "status": "proved",
   "theorems": [
    "Verif.DPHit.C353_more"
   ],
   "note": ""
  },
  {
   "property": "C354",
   "status": "proved",
   "theorems": [
    "Verif.DPHit.C354_refit"
   ],
   "note": ""
  },
  {
   "property": "C355",
   "status": "partial",
   "theorems": [
    "Verif.DPHit.C355_long_partial",
    "Verif.DPHit.C355_refuted",
    "Verif.DPHit.C355_history_refuted"
   ],
   "note": "Ordered division proved; complete coverage, the limit on the number and independence of other groups are refuted."
  },
  {
   "property": "C356",
   "status": "partial",
   "theorems": [
    "Verif.DPHit.C356_sum",
    "Verif.DPHit.C356_noise_partial",
    "Verif.DPHit.C356_hits_partial",
    "Verif.DPHit.C356_refuted"
   ],
   "note": "Proved for integer signals; refuted in general because of the int accumulator."
  },
  {
   "property": "C357",
   "status": "partial",
   "theorems": [
    "Verif.DPHit.C357_terms_partial",
    "Verif.DPHit.C357_refuted",
    "Verif.DPHit.C357_distinct"
   ],
   "note": "Proved if all peaks share a shape; refuted otherwise."
  },
  {
   "property": "C358",
   "status": "proved",
   "theorems": [
    "Verif.DPHit.C358_limits"
   ],
   "note": ""
  },
  {
   "property": "C359",
   "status": "partial",
   "theorems": [
    "Verif.DPHit.C359_average_partial",
    "Verif.DPHit.C359_constant_partial",
    "Verif.DPHit.C359_refuted"
   ],
   "note": "Proved for regions at least half a window long; refuted otherwise."
  },
  {
   "property": "C360",
   "status": "proved",
   "theorems": [
    "Verif.DPHit.C360_region",
    "Verif.DPHit.C360_hits",
    "Verif.DPHit.C360_numbers"
   ],
   "note": "The fit is an arbitrary function; the tick after the region is possible as end (C347)."
  },
  {
   "property": "C361",
   "status": "partial",
   "theorems": [
    "Verif.DataProv.C361_all",
    "Verif.DataProv.C361_range",
    "Verif.DataProv.C361_zero_partial",
    "Verif.DataProv.C361_zero_refuted"
   ],
   "note": "The zero level is the scaled 0 only if 0 is within the ADC limits; refuted otherwise."
  },
  {
   "property": "C362",
   "status": "proved",
   "theorems": [
    "Verif.DataProv.C362_max"
   ],
   "note": ""
  },
  {
   "property": "C363",
   "status": "proved",
   "theorems": [
    "Verif.DataProv.C363_mean"
   ],
   "note": ""
  },
  {
   "property": "C364",
   "status": "partial",
   "theorems": [
    "Verif.DataProv.C364_maxMean_partial",
    "Verif.DataProv.C364_refuted"
   ],
   "note": "The value may exceed the maximum of the window and the lifetime table may be read beyond its end (refuted)."
  },
  {
   "property": "C365",
   "status": "partial",
   "theorems": [
    "Verif.DataProv.C365_image_partial",
    "Verif.DataProv.C365_refuted"
   ],
   "note": "Fails for signals longer than the number of time samples with the mean around the maximum."
  },
  {
   "property": "C366",
   "status": "proved",
   "theorems": [
    "Verif.DataProv.C366_pixel"
   ],
   "note": ""
  },
  {
   "property": "C367",
   "status": "proved",
   "theorems": [
    "Verif.DataProv.C367_pool"
   ],
   "note": ""
  },
  {
   "property": "C368",
   "status": "partial",
   "theorems": [
    "Verif.DataProv.C368_blur_partial",
    "Verif.DataProv.C368_constant",
    "Verif.DataProv.C368_refuted"
   ],
   "note": "Fails for images with fewer wires than the right half of the kernel."
  },
  {
   "property": "C369",
   "status": "partial",
   "theorems": [
    "Verif.DataProv.C369_patch_partial",
    "Verif.DataProv.C369_refuted",
    "Verif.DataProv.C369_odd_refuted"
   ],
   "note": "Holds for even sizes and a patch provided by the caller; getPatch itself always writes outside its vector."
  },
  {
   "property": "C370",
   "status": "partial",
   "theorems": [
    "Verif.DataProv.C370_patch_partial",
    "Verif.DataProv.C370_refuted",
    "Verif.DataProv.C370_scaled_refuted"
   ],
   "note": "Holds inside the image; refuted at its edges."
  },
  {
   "property": "C371",
   "status": "proved",
   "theorems": [
    "Verif.PmaUtil.C371_projection"
   ],
   "note": ""
  },
  {
   "property": "C372",
   "status": "partial",
   "theorems": [
    "Verif.PmaUtil.C372_nearest",
    "Verif.PmaUtil.C372_value_partial",
    "Verif.PmaUtil.C372_none",
    "Verif.PmaUtil.C372_refuted"
   ],
   "note": "The returned number is undefined when one line has two equal points (refuted); the point is right in all cases."
  },
  {
   "property": "C373",
   "status": "proved",
   "theorems": [
    "Verif.PmaUtil.C373_radius"
   ],
   "note": ""
  },
  {
   "property": "C374",
   "status": "proved",
   "theorems": [
    "Verif.PmaUtil.C374_views"
   ],
   "note": ""
  },
  {
   "property": "C375",
   "status": "partial",
   "theorems": [
    "Verif.PmaUtil.C375_orders_partial",
    "Verif.PmaUtil.C375_refuted",
    "Verif.PmaUtil.C375_segment_refuted"
   ],
   "note": "Refuted for null pointers and for the order along a segment, which never orders anything."
  },
  {
   "property": "C376",
   "status": "proved",
   "theorems": [
    "Verif.PmaUtil.C376_long",
    "Verif.PmaUtil.C376_bounds",
    "Verif.PmaUtil.C376_sym",
    "Verif.PmaUtil.C376_refuted"
   ],
   "note": "C376_refuted shows what the factor 1.0001 costs: the value is not the distance, and does not always order segments by distance."
  },
  {
   "property": "C377",
   "status": "partial",
   "theorems": [
    "Verif.PmaUtil.C377_point",
    "Verif.PmaUtil.C377_set_partial",
    "Verif.PmaUtil.C377_refuted"
   ],
   "note": "For a short projection the fraction given to the hit is 0 although its point is the middle of the segment."
  },
  {
   "property": "C378",
   "status": "partial",
   "theorems": [
    "Verif.PmaUtil.C378_weights_partial",
    "Verif.PmaUtil.C378_refuted",
    "Verif.PmaUtil.C378_around_partial",
    "Verif.PmaUtil.C378_around_refuted"
   ],
   "note": "Not monotone at amplitude 0; only the first of several next elements is used."
  },
  {
   "property": "C379",
   "status": "partial",
   "theorems": [
    "Verif.PmaUtil.C379_count_partial",
    "Verif.PmaUtil.C379_changed",
    "Verif.PmaUtil.C379_refuted"
   ],
   "note": "The bound is one and a half times the maximum; own hits may be dropped because of the neighbours' hits."
  },
  {
   "property": "C380",
   "status": "partial",
   "theorems": [
    "Verif.ClusMatch.C380_info_partial",
    "Verif.ClusMatch.C380_refuted"
   ],
   "note": "The charge is one less than the sum, and maxima hold for times of at least -1 only (refuted otherwise)."
  },
  {
   "property": "C381",
   "status": "partial",
   "theorems": [
    "Verif.ClusMatch.C381_sym",
    "Verif.ClusMatch.C381_overlap_partial",
    "Verif.ClusMatch.C381_refuted"
   ],
   "note": "For clusters with hits; two clusters without hits overlap (refuted)."
  },
  {
   "property": "C382",
   "status": "partial",
   "theorems": [
    "Verif.ClusMatch.C382_charge_partial",
    "Verif.ClusMatch.C382_refuted"
   ],
   "note": "The fraction is of the second cluster, so the test depends on the order (refuted)."
  },
  {
   "property": "C383",
   "status": "partial",
   "theorems": [
    "Verif.ClusMatch.C383_z_partial",
    "Verif.ClusMatch.C383_refuted"
   ],
   "note": "When both pairs of end wires cross, and when the last ones do not; clusters whose first wires do not cross may pass (refuted)."
  },
  {
   "property": "C384",
   "status": "partial",
   "theorems": [
    "Verif.ClusMatch.C384_two_partial",
    "Verif.ClusMatch.C384_id_refuted"
   ],
   "note": "With clusters in some plane; the numbers reported are cut to 16 bits (refuted)."
  },
  {
   "property": "C385",
   "status": "partial",
   "theorems": [
    "Verif.ClusMatch.C385_three_partial",
    "Verif.ClusMatch.C384_id_refuted"
   ],
   "note": "With clusters in some plane; the numbers reported are cut to 16 bits (refuted)."
  },
  {
   "property": "C386",
   "status": "partial",
   "theorems": [
    "Verif.ClusMatch.C386_debug_partial",
    "Verif.ClusMatch.C386_refuted"
   ],
   "note": "If at least one space point is asked for; refuted otherwise."
  },
  {
   "property": "C387",
   "status": "partial",
   "theorems": [
    "Verif.ClusMatch.C387_third_partial",
    "Verif.ClusMatch.C387_refuted"
   ],
   "note": "For two-plane detectors or without the space point test; refuted otherwise."
  },
  {
   "property": "C388",
   "status": "partial",
   "theorems": [
    "Verif.ClusMatch.C388_history_partial",
    "Verif.ClusMatch.C388_refuted"
   ],
   "note": "If the later event has clusters; refuted otherwise."
  },
  {
   "property": "C389",
   "status": "partial",
   "theorems": [
    "Verif.ClusMatch.C389_space_partial",
    "Verif.ClusMatch.C389_refuted"
   ],
   "note": "Without time offsets between planes; refuted with them."
  },
  {
   "property": "C390",
   "status": "partial",
   "theorems": [
    "Verif.PrimVtx.C390_sym_partial",
    "Verif.PrimVtx.C390_sym_refuted"
   ],
   "note": "If both points are near the starts; refuted otherwise."
  },
  {
   "property": "C391",
   "status": "proved",
   "theorems": [
    "Verif.PrimVtx.C391_close"
   ],
   "note": "Exact for unit directions."
  },
  {
   "property": "C392",
   "status": "proved",
   "theorems": [
    "Verif.PrimVtx.C392_alone"
   ],
   "note": ""
  },
  {
   "property": "C393",
   "status": "proved",
   "theorems": [
    "Verif.PrimVtx.C393_all"
   ],
   "note": ""
  },
  {
   "property": "C394",
   "status": "proved",
   "theorems": [
    "Verif.PrimVtx.C394_close"
   ],
   "note": ""
  },
  {
   "property": "C395",
   "status": "partial",
   "theorems": [
    "Verif.PrimVtx.C395_one_partial",
    "Verif.PrimVtx.C395_refuted"
   ],
   "note": "If closeness is transitive; refuted otherwise."
  },
  {
   "property": "C396",
   "status": "proved",
   "theorems": [
    "Verif.PrimVtx.C396_position"
   ],
   "note": ""
  },
  {
   "property": "C397",
   "status": "partial",
   "theorems": [
    "Verif.GFPlane.C397_axes",
    "Verif.GFPlane.C397_throws",
    "Verif.GFPlane.C397_refuted"
   ],
   "note": "Exact, except that a zero first vector is accepted (refuted)."
  },
  {
   "property": "C398",
   "status": "proved",
   "theorems": [
    "Verif.GFPlane.C398_normal"
   ],
   "note": "Over the reals."
  },
  {
   "property": "C399",
   "status": "proved",
   "theorems": [
    "Verif.GFPlane.C399_inverse"
   ],
   "note": "Over the reals."
  },
  {
   "property": "C400",
   "status": "partial",
   "theorems": [
    "Verif.GFPlane.C400_line_partial",
    "Verif.GFPlane.C400_refuted"
   ],
   "note": "For lines at an angle of at least 10^-6 to the plane; others get 10^100 (refuted)."
  },
  {
   "property": "C401",
   "status": "partial",
   "theorems": [
    "Verif.GFPlane.C401_equal_partial",
    "Verif.GFPlane.C401_refuted"
   ],
   "note": "Reflexive, symmetric and characterised; not transitive (refuted)."
  },
  {
   "property": "C402",
   "status": "partial",
   "theorems": [
    "Verif.GFPlane.C402_history_partial",
    "Verif.GFPlane.C402_refuted"
   ],
   "note": "For calls without zero vectors; refuted with a zero first axis."
  },
  {
   "property": "C403",
   "status": "proved",
   "theorems": [
    "Verif.GFPlane.C403_distance"
   ],
   "note": "Over the reals."
  },
  {
   "property": "C404",
   "status": "partial",
   "theorems": [
    "Verif.Seg2D.C404_hits_partial",
    "Verif.Seg2D.C404_refuted"
   ],
   "note": "the hits of the parts and at most one hit left are the hits of the cluster; that no hit is lost is false: the last single hit is in no part"
  },
  {
   "property": "C405",
   "status": "partial",
   "theorems": [
    "Verif.Seg2D.C405_ends_partial",
    "Verif.Seg2D.C405_run_partial",
    "Verif.Seg2D.C405_refuted"
   ],
   "note": "for a line distance other than 0 and a positive inner radius; false without: with line distance 0 no number of rounds suffices"
  },
  {
   "property": "C406",
   "status": "proved",
   "theorems": [
    "Verif.Seg2D.C406_dense"
   ],
   "note": "parts are not empty in the code (C412); the model gives an empty part the origin as ends"
  },
  {
   "property": "C407",
   "status": "proved",
   "theorems": [
    "Verif.Seg2D.C407_merge"
   ],
   "note": ""
  },
  {
   "property": "C408",
   "status": "partial",
   "theorems": [
    "Verif.Seg2D.C408_ends_partial",
    "Verif.Seg2D.C408_refuted"
   ],
   "note": "for DenseMinNVtx of 1 and more; false for 0"
  },
  {
   "property": "C409",
   "status": "partial",
   "theorems": [
    "Verif.Seg2D.C409_merge_partial",
    "Verif.Seg2D.C409_refuted",
    "Verif.Seg2D.C409_refuted_tag",
    "Verif.Seg2D.C409_refuted_choice"
   ],
   "note": "exact result if no part is tagged and the first index is the smallest; false otherwise"
  },
  {
   "property": "C410",
   "status": "proved",
   "theorems": [
    "Verif.Seg2D.C410_split",
    "Verif.Seg2D.C410_all"
   ],
   "note": ""
  },
  {
   "property": "C411",
   "status": "proved",
   "theorems": [
    "Verif.Seg2D.C411_naive"
   ],
   "note": ""
  },
  {
   "property": "C412",
   "status": "proved",
   "theorems": [
    "Verif.Seg2D.C412_segments",
    "Verif.Seg2D.C412_first"
   ],
   "note": ""
  },
  {
   "property": "C413",
   "status": "proved",
   "theorems": [
    "Verif.Seg2D.C413_output",
    "Verif.Seg2D.C413_ends",
    "Verif.Seg2D.C413_huge"
   ],
   "note": ""
  },
  {
   "property": "C414",
   "status": "proved",
   "theorems": [
    "Verif.TrkSep.C414_final"
   ],
   "note": ""
  },
  {
   "property": "C415",
   "status": "partial",
   "theorems": [
    "Verif.TrkSep.C415_first_partial",
    "Verif.TrkSep.C415_cylinder",
    "Verif.TrkSep.C415_refuted",
    "Verif.TrkSep.C415_refuted_nan"
   ],
   "note": "if each track has space points and the mean is positive; false otherwise: with mean 0 or a track without points nothing is marked"
  },
  {
   "property": "C416",
   "status": "partial",
   "theorems": [
    "Verif.TrkSep.C416_second_partial",
    "Verif.TrkSep.C416_refuted"
   ],
   "note": "soundness, and completeness towards tracks of the first pass and tracks of smaller key; false in general: one pass in order of keys"
  },
  {
   "property": "C417",
   "status": "proved",
   "theorems": [
    "Verif.TrkSep.C417_cones",
    "Verif.TrkSep.C417_decision"
   ],
   "note": ""
  },
  {
   "property": "C418",
   "status": "proved",
   "theorems": [
    "Verif.TrkSep.C418_noop"
   ],
   "note": ""
  },
  {
   "property": "C419",
   "status": "proved",
   "theorems": [
    "Verif.TrkSep.C419_hits"
   ],
   "note": ""
  },
  {
   "property": "C420",
   "status": "partial",
   "theorems": [
    "Verif.TrkSep.C420_ok_partial",
    "Verif.TrkSep.C420_refuted"
   ],
   "note": "if each space point has a track and all tracks are given; false otherwise"
  },
  {
   "property": "C421",
   "status": "proved",
   "theorems": [
    "Verif.TrkSep.C421_defined",
    "Verif.TrkSep.C421_best",
    "Verif.TrkSep.C421_line",
    "Verif.TrkSep.C421_sense"
   ],
   "note": ""
  },
  {
   "property": "C422",
   "status": "proved",
   "theorems": [
    "Verif.MCHit.C422_deposits"
   ],
   "note": "deposits are an abstract linearly ordered type"
  },
  {
   "property": "C423",
   "status": "proved",
   "theorems": [
    "Verif.MCHit.C423_wire"
   ],
   "note": ""
  },
  {
   "property": "C424",
   "status": "proved",
   "theorems": [
    "Verif.MCHit.C424_peak",
    "Verif.MCHit.C424_refuted_negative"
   ],
   "note": "the theorem states the code's behaviour for charges that are not positive; the witness shows it"
  },
  {
   "property": "C425",
   "status": "partial",
   "theorems": [
    "Verif.MCHit.C425_no_gain_partial",
    "Verif.MCHit.C425_conserved_partial",
    "Verif.MCHit.C425_refuted_gap",
    "Verif.MCHit.C425_refuted_twice"
   ],
   "note": "false in general (witnesses); exact for consecutive counts, an upper bound always"
  },
  {
   "property": "C426",
   "status": "proved",
   "theorems": [
    "Verif.MCHit.C426_produce"
   ],
   "note": "the final sort by channel is the identity and not modelled"
  },
  {
   "property": "C427",
   "status": "proved",
   "theorems": [
    "Verif.SCE.C427_first_label",
    "Verif.SCE.C427_slice"
   ],
   "note": ""
  },
  {
   "property": "C428",
   "status": "proved",
   "theorems": [
    "Verif.SCE.C428_shift",
    "Verif.SCE.C428_sce",
    "Verif.SCE.C428_rigid"
   ],
   "note": ""
  },
  {
   "property": "C429",
   "status": "proved",
   "theorems": [
    "Verif.SCE.C429_vertex"
   ],
   "note": ""
  },
  {
   "property": "C430",
   "status": "proved",
   "theorems": [
    "Verif.SCE.C430_slices"
   ],
   "note": ""
  },
  {
   "property": "C431",
   "status": "proved",
   "theorems": [
    "Verif.SCE.C431_objects"
   ],
   "note": ""
  },
  {
   "property": "C432",
   "status": "partial",
   "theorems": [
    "Verif.SCE.C432_hits_partial",
    "Verif.SCE.C432_refuted"
   ],
   "note": "false for slices without time and for space points of several hits (witness)"
  },
  {
   "property": "C433",
   "status": "proved",
   "theorems": [
    "Verif.LineClus.C433_endpoints",
    "Verif.LineClus.C433_vertices"
   ],
   "note": ""
  },
  {
   "property": "C434",
   "status": "proved",
   "theorems": [
    "Verif.LineClus.C434_clusters"
   ],
   "note": ""
  },
  {
   "property": "C435",
   "status": "partial",
   "theorems": [
    "Verif.LineClus.C435_ends_partial",
    "Verif.LineClus.C435_refuted",
    "Verif.LineClus.C435_refuted_dangling"
   ],
   "note": "false for 2D vertices without clusters (witness)"
  },
  {
   "property": "C436",
   "status": "proved",
   "theorems": [
    "Verif.LineClus.C436_vertices",
    "Verif.LineClus.C436_planes"
   ],
   "note": ""
  },
  {
   "property": "C437",
   "status": "proved",
   "theorems": [
    "Verif.LineClus.C437_check",
    "Verif.LineClus.C437_disjoint"
   ],
   "note": ""
  },
  {
   "property": "C438",
   "status": "proved",
   "theorems": [
    "Verif.PmaNode.C438_set",
    "Verif.PmaNode.C438_wall",
    "Verif.PmaNode.C438_same"
   ],
   "note": "rational numbers; every place"
  },
  {
   "property": "C439",
   "status": "partial",
   "theorems": [
    "Verif.PmaNode.C439_place",
    "Verif.PmaNode.C439_component_partial",
    "Verif.PmaNode.C439_refuted_border"
   ],
   "note": "proved if both neighbouring places are inside the limits; false at the border (C439_refuted_border)"
  },
  {
   "property": "C440",
   "status": "proved",
   "theorems": [
    "Verif.PmaNode.C440_ends"
   ],
   "note": "any objective function, exact numbers"
  },
  {
   "property": "C441",
   "status": "proved",
   "theorems": [
    "Verif.PmaNode.C441_better"
   ],
   "note": "any objective function, exact numbers"
  },
  {
   "property": "C442",
   "status": "partial",
   "theorems": [
    "Verif.PmaNode.C442_refuted",
    "Verif.PmaNode.C441_better"
   ],
   "note": "false: counterexample C442_refuted; holds if the value returned is positive (C441_better)"
  },
  {
   "property": "C443",
   "status": "proved",
   "theorems": [
    "Verif.PmaNode.C443_optimize"
   ],
   "note": "any objective function, exact numbers"
  },
  {
   "property": "C444",
   "status": "proved",
   "theorems": [
    "Verif.DBC3D.C444_hits",
    "Verif.DBC3D.C444_distance"
   ],
   "note": "any result of the clustering"
  },
  {
   "property": "C445",
   "status": "proved",
   "theorems": [
    "Verif.DBC3D.C445_disjoint"
   ],
   "note": ""
  },
  {
   "property": "C446",
   "status": "proved",
   "theorems": [
    "Verif.DBC3D.C446_points"
   ],
   "note": ""
  },
  {
   "property": "C447",
   "status": "partial",
   "theorems": [
    "Verif.DBC3D.C447_written_partial",
    "Verif.DBC3D.C447_refuted"
   ],
   "note": "written exactly if two space points differ in x; false for clusters of equal x (C447_refuted)"
  },
  {
   "property": "C448",
   "status": "proved",
   "theorems": [
    "Verif.DBC3D.C448_content"
   ],
   "note": "rational numbers"
  },
  {
   "property": "C449",
   "status": "proved",
   "theorems": [
    "Verif.DBC3D.C449_fit"
   ],
   "note": "rational numbers; without the limits 1E6 and float variables of the search"
  },
  {
   "property": "C450",
   "status": "proved",
   "theorems": [
    "Verif.ShwFinder.C450_clusters"
   ],
   "note": "rational numbers"
  },
  {
   "property": "C451",
   "status": "proved",
   "theorems": [
    "Verif.ShwFinder.C451_showers"
   ],
   "note": "any list of scans"
  },
  {
   "property": "C452",
   "status": "partial",
   "theorems": [
    "Verif.ShwFinder.C452_cone_partial",
    "Verif.ShwFinder.C452_refuted"
   ],
   "note": "proved for vertices at wire 0 and cones to the right; false otherwise (C452_refuted)"
  },
  {
   "property": "C453",
   "status": "partial",
   "theorems": [
    "Verif.ShwFinder.C453_refuted"
   ],
   "note": "false: counterexample C453_refuted"
  },
  {
   "property": "C454",
   "status": "proved",
   "theorems": [
    "Verif.Cheat.C454_events"
   ],
   "note": "the map of particles keeps the last entry of a track number"
  },
  {
   "property": "C455",
   "status": "partial",
   "theorems": [
    "Verif.Cheat.C455_never",
    "Verif.Cheat.C455_refuted"
   ],
   "note": "false: no event ever has hits and the numbers start at -1"
  },
  {
   "property": "C456",
   "status": "proved",
   "theorems": [
    "Verif.Cheat.C456_order"
   ],
   "note": "any wires of channels"
  },
  {
   "property": "C457",
   "status": "proved",
   "theorems": [
    "Verif.Cheat.C457_wire",
    "Verif.Cheat.C457_count"
   ],
   "note": "deposits and nearest wires are parameters"
  },
  {
   "property": "C458",
   "status": "partial",
   "theorems": [
    "Verif.Cheat.C458_refuted",
    "Verif.Cheat.C458_refuted_key"
   ],
   "note": "false: counterexamples"
  },
  {
   "property": "C459",
   "status": "proved",
   "theorems": [
    "Verif.Cheat.C459_clusters"
   ],
   "note": "any scan"
  },
  {
   "property": "C460",
   "status": "proved",
   "theorems": [
    "Verif.ProdMisc.C460_vertices"
   ],
   "note": "any fit"
  },
  {
   "property": "C461",
   "status": "partial",
   "theorems": [
    "Verif.ProdMisc.C461_refuted"
   ],
   "note": "false: counterexample C461_refuted"
  },
  {
   "property": "C462",
   "status": "proved",
   "theorems": [
    "Verif.ProdMisc.C462_vertices",
    "Verif.ProdMisc.C462_fails"
   ],
   "note": "any list of particles"
  },
  {
   "property": "C463",
   "status": "partial",
   "theorems": [
    "Verif.ProdMisc.C463_primary_partial",
    "Verif.ProdMisc.C463_refuted"
   ],
   "note": "proved for primaries; false for tracks with a mother"
  },
  {
   "property": "C464",
   "status": "partial",
   "theorems": [
    "Verif.ProdMisc.C464_hits_partial",
    "Verif.ProdMisc.C464_refuted"
   ],
   "note": "proved if the number of a cluster is its index plus one; false otherwise"
  },
  {
   "property": "C465",
   "status": "proved",
   "theorems": [
    "Verif.ProdMisc.C465_spacepoints"
   ],
   "note": "any way to make space points"
  },
  {
   "property": "C466",
   "status": "partial",
   "theorems": [
    "Verif.ProdMisc.C466_hits_partial",
    "Verif.ProdMisc.C466_refuted"
   ],
   "note": "proved if each track has hits; false otherwise"
  },
  {
   "property": "C467",
   "status": "proved",
   "theorems": [
    "Verif.ProdMisc.C467_tracks"
   ],
   "note": "any fit"
  },
  {
   "property": "C468",
   "status": "proved",
   "theorems": [
    "Verif.ProdMisc.C468_written"
   ],
   "note": "any fit"
  },
  {
   "property": "C469",
   "status": "proved",
   "theorems": [
    "Verif.PmaVtx.C469_merge"
   ],
   "note": "a track is attached to itself"
  },
  {
   "property": "C470",
   "status": "partial",
   "theorems": [
    "Verif.PmaVtx.C470_refused_partial",
    "Verif.PmaVtx.C470_refuted"
   ],
   "note": "tracks unchanged if none is attached; false otherwise (C470_refuted)"
  },
  {
   "property": "C471",
   "status": "partial",
   "theorems": [
    "Verif.PmaVtx.C471_dedup_partial",
    "Verif.PmaVtx.C471_refuted"
   ],
   "note": "no candidate is lost; none contained in another is kept if none is strictly contained; false otherwise"
  },
  {
   "property": "C472",
   "status": "proved",
   "theorems": [
    "Verif.PmaVtx.C472_cover",
    "Verif.PmaVtx.C472_ends",
    "Verif.PmaVtx.C472_closest"
   ],
   "note": "any fit"
  },
  {
   "property": "C473",
   "status": "proved",
   "theorems": [
    "Verif.PmaVtx.C473_select"
   ],
   "note": "any relation of tracks"
  },
  {
   "property": "C474",
   "status": "proved",
   "theorems": [
    "Verif.PmaVtx.C474_best"
   ],
   "note": "rational angles"
  },
  {
   "property": "C475",
   "status": "proved",
   "theorems": [
    "Verif.PmaVtx.C475_sort"
   ],
   "note": "rational lengths"
  },
  {
   "property": "C476",
   "status": "proved",
   "theorems": [
    "Verif.VtxAdd.C476_first"
   ],
   "note": "any track"
  },
  {
   "property": "C477",
   "status": "proved",
   "theorems": [
    "Verif.VtxAdd.C477_third"
   ],
   "note": "any fit"
  },
  {
   "property": "C478",
   "status": "proved",
   "theorems": [
    "Verif.VtxAdd.C478_second"
   ],
   "note": "minimal length above 0"
  },
  {
   "property": "C479",
   "status": "partial",
   "theorems": [
    "Verif.VtxAdd.C479_closest_partial",
    "Verif.VtxAdd.C479_refuted"
   ],
   "note": "if no pair is shorter than four fifths of another; false otherwise"
  },
  {
   "property": "C480",
   "status": "partial",
   "theorems": [
    "Verif.VtxAdd.C478_second",
    "Verif.VtxAdd.C480_refuted"
   ],
   "note": "the tracks are unchanged; the segment is not"
  },
  {
   "property": "C481",
   "status": "proved",
   "theorems": [
    "Verif.VtxAdd.C481_first_pass"
   ],
   "note": "any fit"
  },
  {
   "property": "C482",
   "status": "proved",
   "theorems": [
    "Verif.VtxAdd.C482_second_pass"
   ],
   "note": "any fit"
  },
  {
   "property": "C483",
   "status": "proved",
   "theorems": [
    "Verif.VtxAdd.C483_candidates"
   ],
   "note": "minimal length above 0"
  },
  {
   "property": "C484",
   "status": "proved",
   "theorems": [
    "Verif.Cheat2.C484_hits",
    "Verif.Cheat2.C484_charge"
   ],
   "note": "rational charges"
  },
  {
   "property": "C485",
   "status": "partial",
   "theorems": [
    "Verif.Cheat2.C484_hits",
    "Verif.Cheat2.C485_refuted"
   ],
   "note": "true of the last hit of a wire only"
  },
  {
   "property": "C486",
   "status": "partial",
   "theorems": [
    "Verif.Cheat2.C486_numbers_partial",
    "Verif.Cheat2.C486_refuted"
   ],
   "note": "planes, TPCs and cryostats below 10; false otherwise"
  },
  {
   "property": "C487",
   "status": "proved",
   "theorems": [
    "Verif.Cheat2.C487_particles"
   ],
   "note": "any numbers"
  },
  {
   "property": "C488",
   "status": "proved",
   "theorems": [
    "Verif.Cheat2.C488_showers"
   ],
   "note": "all particles known"
  },
  {
   "property": "C489",
   "status": "partial",
   "theorems": [
    "Verif.Cheat2.C489_hits_partial",
    "Verif.Cheat2.C489_refuted"
   ],
   "note": "if the clusters of the shower are the first ones; false otherwise"
  },
  {
   "property": "C490",
   "status": "proved",
   "theorems": [
    "Verif.Cheat2.C490_points"
   ],
   "note": "any clusters"
  },
  {
   "property": "C491",
   "status": "proved",
   "theorems": [
    "Verif.Cheat2.C491_tracks"
   ],
   "note": "all particles known"
  },
  {
   "property": "C492",
   "status": "proved",
   "theorems": [
    "Verif.Cheat2.C492_points"
   ],
   "note": "all particles known"
  },
  {
   "property": "C493",
   "status": "proved",
   "theorems": [
    "Verif.SmallMods.C493_standard"
   ],
   "note": "any hits"
  },
  {
   "property": "C494",
   "status": "proved",
   "theorems": [
    "Verif.SmallMods.C494_icarus"
   ],
   "note": "any hits"
  },
  {
   "property": "C495",
   "status": "proved",
   "theorems": [
    "Verif.SmallMods.C495_apa"
   ],
   "note": "any disambiguation"
  },
  {
   "property": "C496",
   "status": "partial",
   "theorems": [
    "Verif.SmallMods.C496_entries_partial",
    "Verif.SmallMods.C496_refuted"
   ],
   "note": "if all clusters are in these views; false otherwise"
  },
  {
   "property": "C497",
   "status": "proved",
   "theorems": [
    "Verif.SmallMods.C497_score"
   ],
   "note": "rational places; distances below the largest float"
  },
  {
   "property": "C498",
   "status": "proved",
   "theorems": [
    "Verif.SmallMods.C498_origin"
   ],
   "note": "energies not negative"
  }
 ]
}