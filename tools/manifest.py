#!/usr/bin/env python3
"""Single source of MANIFEST.json: (property, status, theorems, note)."""
import json, re, os, sys
N="Verif.CMTool."
C=[
("C01","proved",[N+"C01_result_is_partition"],""),
("C02","proved",[N+"C02_isMerged_iff_connected"],""),
("C03","proved",[N+"C03_mergeAllowed_exact",N+"C03_prohibitions_enforced"],""),
("C04","proved",[N+"C04_rejected_calls_change_nothing"],""),
("C05","proved",[N+"C05_combine_succeeds_iff",N+"C05_combine_composes"],""),
("C06","proved",[N+"C06_mergedSet_agrees"],""),
("C07","proved",[N+"C07_results_disjoint"],""),
("C08","proved",[N+"C08_greedy_by_score",N+"C08_best_is_first"],""),
("C09","proved",[N+"Comb.C09_cluster_combinations",N+"Comb.C09_terminates_every_seed"],""),
("C10","partial",[N+"Comb.C10_simple_combination_partial",N+"Comb.C10_simple_large_is_undefined",N+"Comb.C10_simple_bad_arguments",N+"Comb.C10_plane_combinations_partial",N+"Comb.C10_planes_large_is_undefined"],"true up to 33; proved to divide by zero from 34 on (32-bit factorial wraps to 0)"),
("C11","partial",[N+"C11_offered_sets_partial",N+"C11_reported_sets_partial"],"for at most 33 planes (C10)"),
("C12","proved",[N+"C12_hits_follow_book",N+"C12_planes_preserved"],""),
("C13","proved",[N+"C13_process_terminates"],""),
("C14","proved",[N+"C14_only_allowed_merges",N+"C14_links_are_merged_unless_separated"],""),
("C15","proved",[N+"C15_priority_order"],""),
("C16","partial",[N+"AlgoArray.C16_bool_is_right_grouped",N+"AlgoArray.C16_not_left_to_right",N+"AlgoArray.C16_left_to_right_partial"],"the code groups to the right; the documented left-to-right value is refuted for mixed chains and proved for uniform ones"),
("C55","partial",[N+"C55_stale_output_on_empty_event",N+"C55_empty_event_clears_partial"],"refuted for the copying SetClusters, proved for the hit-list one"),
("C17","proved",["Verif.PMAlg.C17_links_consistent"],""),
("C18","proved",["Verif.PMAlg.C18_addNext","Verif.PMAlg.C18_removeNext","Verif.PMAlg.C18_remove_undoes_add","Verif.PMAlg.C18_disconnect","Verif.PMAlg.C18_construct"],""),
("C19","proved",["Verif.Track.C19_vectors_in_step","Verif.Track.C19_total_chi2"],""),
("C56","partial",["Verif.Track.C56_fit_infos","Verif.Track.C56_space_points_lost","Verif.Track.C56_direct_add_partial"],"fit infos proved; space points refuted: the book keeper forwards the element without its hit, so they are never recorded (direct OptionalOutputs use is right)"),
("C20","proved",["Verif.DBScan3D.C20_labels"],"distances over exact rationals"),
("C21","proved",["Verif.DBScan3D.C21_density_components","Verif.DBScan3D.C21_order_independent"],"distances over exact rationals"),
("C22","proved",["Verif.DBScan3D.C22_ids_contiguous"],"distances over exact rationals"),
("C23","proved",["Verif.GausFit.C23_requests","Verif.GausFit.C23_no_double_delete"],"ROOT's reading of the formula string is trusted"),
("C24","proved",["Verif.Hough.C24_counters","Verif.Hough.C24_exact","Verif.Hough.C24_max"],"counters reduced to signed char as in the code; exact up to 127 overlapping calls"),
("C25","proved",["Verif.Hough.C25_history","Verif.Hough.C25_add_subtract","Verif.Hough.C25_order","Verif.Hough.C25_outside"],"distance tables (floating point) are an arbitrary function"),
("C26","proved",["Verif.Hough.C26_connected","Verif.Hough.C26_cells"],""),
("C27","partial",["Verif.Hough.C27_set_partial","Verif.Hough.C27_set_actual","Verif.Hough.C27_set_refuted","Verif.Hough.C27_get_max_undefined","Verif.Hough.C27_get_max_partial"],"the full claim is false: set() stops after the first block (operator precedence, line 184) and get_max() runs past the end of every non-empty map of 1..63 blocks; both refuted, the true remainder proved"),
("C57","partial",["Verif.Hough.C57_shared_cell_refuted","Verif.Hough.C57_shared_cell_partial","Verif.Hough.C57_crossing_partial"],"false in general (refuted with a witness); proved for equal distances and for crossings ending more than one cell apart"),
("C58","proved",["Verif.Hough.C58_reported_max","Verif.Hough.C25_outside"],""),
("C28","proved",["Verif.KdTree.C28_build"],"positions are exact rationals; std::sort is any function meeting its contract"),
("C29","proved",["Verif.KdTree.C29_brute","Verif.KdTree.C29_neighbours","Verif.KdTree.C29_empty_undefined"],"for the trees of non-empty hit lists (no null node, C28); on the tree of an empty list both searches are undefined (proved)"),
("C59","partial",["Verif.KdTree.C59_close_hits_found_partial","Verif.KdTree.C59_refuted"],"false in full: pruning along x uses the y-z separation (refuted with a witness); proved when all three coordinate differences are below the reference distance"),
("C60","proved",["Verif.KdTree.C60_find_entry"],"also shows FindEntry never collects candidates"),
("C30","proved",["Verif.MCComp.reset_conserves_charge","Verif.MCComp.resetGroups_conserves_charge"],"Exact rational charges; the window is given after conversion to TDC counts, not reversed by more than two counts (see reversed_window), track ids not negative (see C32)."),
("C31","proved",["Verif.MCComp.resetGroups_ok_iff","Verif.MCComp.groups_index","Verif.MCComp.single_index","Verif.MCComp.unregistered_last"],"Both registration modes; repeated ids in group mode raise an exception, in single mode change nothing."),
("C32","partial",["Verif.MCComp.accessors_in_range_partial","Verif.MCComp.mcqSum_off_by_one","Verif.MCComp.negative_track_ub","Verif.MCComp.empty_cluster_ub"],"Refuted in full: MCQSum(nplanes), a negative track id and an empty cluster all index out of range; proved for the other requests."),
("C33","proved",["Verif.MCComp.best_clusters"],"For non-empty clusters and at most 256 planes."),
("C61","proved",["Verif.MCComp.cluster_ep"],"Division by a zero total gives 0 in the model (NaN in the code)."),
("C62","proved",["Verif.MCComp.frac_spec"],""),
("C63","partial",["Verif.MCComp.shower_correctness_partial","Verif.MCComp.shower_correctness_chargeless"],"Maximal product proved; that the chosen object contributes charge is refuted."),
("C34","proved",["Verif.GaussElim.eliminate_solves","Verif.GaussElim.pivots_ne_zero","Verif.GaussElim.solveEquations_spec"],"exact rationals; system solvable when every leading block is non-singular"),
("C64","partial",["Verif.GaussElim.getDistance_spec_partial","Verif.GaussElim.zero_step_diverges"],"proved for a positive step; a zero step is accepted and the constructor never returns (zero_step_diverges)"),
("C35","proved",["Verif.Wave.C35_erosion_dilation","Verif.Wave.C35_between","Verif.Wave.C35_tiny_element"],"structuring element >= 2; smaller ones are shown to read past the end"),
("C36","proved",["Verif.Wave.C36_opening_closing","Verif.Wave.C36_dominates","Verif.Wave.C36_long_element"],"half window at most the vector length; longer ones are shown to read past the end"),
("C65","partial",["Verif.Wave.C65_bounded_partial","Verif.Wave.C65_opening_above_waveform"],"false: windows are not mirrored, so the opening can exceed the waveform; bound by the larger of sample and successor proved"),
("C37","partial",["Verif.Wave.C37_triangle","Verif.Wave.C37_triangle_short","Verif.Wave.C37_triangle_range","Verif.Wave.C37_triangle_constant","Verif.Wave.C37_triangle_no_room","Verif.Wave.C37_median_partial","Verif.Wave.C37_last_window_skipped","Verif.Wave.C37_median_short"],"triangle filter fully; the median filter skips the last tick with a full window (refuted) "),
("C66","partial",["Verif.Wave.C66_derivative_partial","Verif.Wave.C66_fresh_output","Verif.Wave.C66_stale_ends","Verif.Wave.C66_empty_throws"],"inner ticks proved; the end points keep stale content of the output vector (refuted)"),
("C67","proved",["Verif.Wave.C67_truncated_mean","Verif.Wave.C67_rms_ordered"],"exact rationals; squares of the rms values"),
("C68","partial",["Verif.Wave.C68_peaks_partial","Verif.Wave.C68_reads_past_end"],"ordering and termination proved; reading past the end refutes the first part"),
("C38","proved",["Verif.CandHit.C38_candidates"],"includes absence of out-of-range reads; exact rationals"),
("C39","proved",["Verif.CandHit.C39_global_maximum","Verif.CandHit.C39_nothing_missed"],"termination: the recursion budget len+1 always suffices"),
("C40","proved",["Verif.CandHit.C40_groups","Verif.CandHit.C40_after_search","Verif.CandHit.C40_reversed_first"],"for all lists whose first candidate is not reversed; applies to every search result"),
("C41","proved",["Verif.Solver.C41_conserved","Verif.Solver.C41_no_abort"],"Any number of Iterate calls on wires, orphans or everything, any alpha per call; exact arithmetic."),
("C42","proved",["Verif.Solver.C42_optimal"],"Includes zero quadratic coefficient (division by zero modelled as +-inf or NaN)."),
("C43","proved",["Verif.Solver.C43_exact_change","Verif.Solver.C43_iterate"],"For coupling-closed sets of space charges; with orphans for alpha<2."),
("C44","partial",["Verif.Solver.C44_each_once_partial","Verif.Solver.C44_refuted"],"Proved unless the number of wires is a multiple of 1299827; then refuted: only wires 0, 1299827, ... are visited. Index arithmetic without 2^32 wrap-around."),
("C69","proved",["Verif.Solver.C69_eval","Verif.Solver.C69_abort_iff"],"Exact arithmetic."),
("C45","proved",["Verif.Triplet.C45_exhaustive","Verif.Triplet.C45_members","Verif.Triplet.C45_nodup","Verif.Triplet.C45_isect","Verif.Triplet.C45_zero_threshold"],"For a positive drift threshold; with threshold 0 equal positions are reported."),
("C46","proved",["Verif.Triplet.C46_members","Verif.Triplet.C46_multiset"],"Full chain from constructor input (fill maps, sort, doublets, cache, merge join) to result, for any std::sort; only TPCs with an X hit (see C71)."),
("C47","partial",["Verif.Triplet.C47_limit_partial","Verif.Triplet.C47_refuted"],"Refuted: one more than the limit is returned; proved with bound m+1."),
("C70","partial",["Verif.Triplet.C70_three_views","Verif.Triplet.C70_drift","Verif.Triplet.C70_two_views_partial","Verif.Triplet.C70_refuted"],"Refuted for TripletsTwoView with a bad X channel (position is halved)."),
("C71","partial",["Verif.Triplet.C71_found_partial","Verif.Triplet.C71_refuted"],"Refuted: TPCs without any X hit are skipped."),
("C48","partial",["Verif.Simple.C48_components_partial","Verif.Simple.C48_refuted","Verif.Simple.C50_terminates"],"Partition proved for all inputs; connected components proved if no hit is on wire 0, refuted on wire 0."),
("C49","partial",["Verif.Simple.C49_touch_partial","Verif.Simple.C49_symm_partial","Verif.Simple.C49_refuted"],"Proved away from wire 0; on wire 0 unsigned wrap-around makes it asymmetric."),
("C50","proved",["Verif.Simple.C50_terminates","Verif.Simple.C50_empty"],"Terminates; but the empty list needs 2^64-1 idle rounds (size()-1 underflow)."),
("C51","partial",["Verif.TrackCand.C51_ids","Verif.TrackCand.C51_eq","Verif.TrackCand.C51_rho_partial","Verif.TrackCand.C51_append_total","Verif.TrackCand.C51_plane_partial","Verif.TrackCand.C51_rho_refuted","Verif.TrackCand.C51_plane_reset_refuted","Verif.TrackCand.C51_reset_stale","Verif.TrackCand.C51_plane_append_refuted","Verif.TrackCand.C51_plane_ctor_refuted","Verif.TrackCand.C51_ctor_length_refuted"],"Detector and hit numbers, GetHitIDs, HitInTrack, operator== proved for every history. Ordering parameters proved without reset, planes for addHit-only histories; the rest is false and refuted (reset keeps stale rho/plane, append drops planes, constructors leave planes empty)."),
("C72","partial",["Verif.TrackCand.C72_copy","Verif.TrackCand.C72_refuted","Verif.TrackCand.C72_self_append_partial"],"A different object: proved. The object itself: false, the loop never ends for a nonempty candidate (proved for every number of rounds)."),
("C53","proved",["Verif.LinFit.C53_least_squares","Verif.LinFit.C53_exact","Verif.LinFit.C53_degenerate"],"Exact arithmetic (rationals instead of float); fewer than 65536 points, see C77."),
("C54","proved",["Verif.Hull.C54_encloses","Verif.Hull.C54_empty"],"For every lexicographically sorted nonempty list; on an empty list the code dereferences front() of an empty list (undefined)."),
("C73","proved",["Verif.Hull.C73_area"],"Exact arithmetic."),
("C74","partial",["Verif.Hull.C74_nearest_partial","Verif.Hull.C74_last_edge_refuted","Verif.Hull.C74_sign_refuted"],"False as stated: the last edge is never examined and the sign can be wrong beyond a corner. Proved: nearest among the edges examined."),
("C75","partial",["Verif.Hull.C75_extreme_partial","Verif.Hull.C75_refuted","Verif.Hull.C75_single_refuted"],"False in general (rotating calipers over sorted lists); see the theorem for what holds."),
("C76","partial",["Verif.Hull.C76_order_partial","Verif.Hull.C76_cycle_refuted","Verif.Hull.C76_hull_refuted"],"Lexicographic when x values are equal or differ by more than eps; otherwise the comparison has cycles and the hull can miss points."),
("C77","partial",["Verif.LinFit.C77_finishes_partial","Verif.LinFit.C77_refuted","Verif.LinFit.C77_ndof_refuted"],"Finishes below 65536 points; never from there on (unsigned short index); ndof uses x.size(), not the points fitted."),
("C52","proved",["Verif.Poly.C52_area","Verif.Poly.C52_invariant","Verif.Poly.C52_triangle","Verif.Poly.C52_rectangle"],"Exact arithmetic."),
("C78","partial",["Verif.Poly.C78_perimeter_partial","Verif.Poly.C78_refuted"],"False: it returns the square root of the sum of squared edge lengths (2 for the unit square)."),
("C79","partial",["Verif.Poly.C79_overlap_partial","Verif.Poly.C79_vertical_refuted","Verif.Poly.C79_disjoint_refuted"],"Common point implies true, without vertical edges; with a vertical edge always false; disjoint polygons can be reported as overlapping."),
("C80","partial",["Verif.Poly.C80_overlap_meets","Verif.Poly.C80_exact","Verif.Poly.C80_intersection_partial","Verif.Poly.C80_refuted","Verif.Poly.C80_vertical_refuted"],"SegmentOverlap: proved. GetIntersection: false, the abscissa has the wrong sign; not finite for vertical segments."),
("C81","partial",["Verif.Poly.C81_untangled_partial","Verif.Poly.C81_closing_refuted","Verif.Poly.C81_empty_refuted","Verif.Poly.C81_refuted"],"When it returns, the open chain is untangled; the closing edge is not looked at; for some hexagons the recursion never ends; an empty polygon throws."),
("C82","partial",["Verif.Poly.C82_even_odd_partial","Verif.Poly.C82_triangle_partial","Verif.Poly.C82_convex_partial","Verif.Poly.C82_far_refuted"],"Even-odd rule for abscissae below 10000 and points not on the lines through the edges and the first vertex; false for polygons beyond (10000,10000)."),
("C83","proved",["Verif.Voronoi.C83_first","Verif.Voronoi.C83_insert","Verif.Voronoi.C83_position"],"breakpoint comparisons are an arbitrary oracle"),
("C84","proved",["Verif.Voronoi.C84_remove"],"an arc at the end of the beach line is outside the claim (null dereference, shown by example)"),
("C85","proved",["Verif.Voronoi.C85_counts"],"non-empty beach lines; on an empty one countLeaves follows the null root pointer"),
("C86","partial",["Verif.Voronoi.C86_refuted","Verif.Voronoi.C86_order_partial"],"the balance claim is false after three insertions (refuted); order preservation and termination are proved"),
("C87","proved",["Verif.Voronoi.C87_safe","Verif.Voronoi.C87_ends","Verif.Voronoi.C87_completes","Verif.Voronoi.C87_final"],"coordinates and the order of events are an arbitrary oracle; points carry a non-null hit"),
("C88","proved",["Verif.Voronoi.C88_dcel"],""),
("C89","proved",["Verif.Voronoi.C89_walk"],""),
("C90","proved",["Verif.Voronoi.Geom.C90_meet","Verif.Voronoi.Geom.C90_order","Verif.Voronoi.Geom.C90_order_level","Verif.Voronoi.Geom.C90_left"],"over the reals; rounding not modelled"),
("C91","partial",["Verif.Voronoi.Geom.C91_center","Verif.Voronoi.Geom.C91_event","Verif.Voronoi.Geom.C91_event_complete","Verif.Voronoi.Geom.C91_center2_partial","Verif.Voronoi.Geom.C91_center3","Verif.Voronoi.Geom.C91_center2_refuted"],"computeCircleCenter2 refuses (or divides by zero for) some proper triangles: refuted; over the reals"),
("C92","partial",["Verif.Voronoi.C92_single","Verif.Voronoi.C92_box_partial","Verif.Voronoi.C92_two"],"false for one point (null half edge dereferenced) and two points (bounding box of an empty list); the bounding box is proved for non-empty lists"),
("C93","partial",["Verif.Voronoi.C93_terminate_partial","Verif.Voronoi.C93_dangling_refuted"],"the last clause is false: erased vertices are read again by mergeDegenerateVertices"),
("C94","partial",["Verif.Voronoi.C94_inside_partial","Verif.Voronoi.C94_second_build_refuted"],"proved for the first build of an object, false for the second"),
("C95","partial",["Verif.Voronoi.C95_face_area_partial","Verif.Voronoi.C95_area_refuted","Verif.Voronoi.C95_constructor_refuted","Verif.Voronoi.C95_area_open"],"the stored face area is twice the area, Area drops the closing edge, the constructor calls Area on an empty list"),
("C96","partial",["Verif.Voronoi.C96_links_partial","Verif.Voronoi.C96_faces_refuted"],"everything but the faces of half edges is proved; these are null for every half edge of every diagram"),
("C97","proved",["Verif.Mst.C97_partition","Verif.Mst.C97_components"],"Prim's loop: termination within one round per hit, partition, components. The kd-tree search is an arbitrary function (its own theorems are C28, C29, C59, C60)."),
("C98","proved",["Verif.Mst.C98_tree"],"Edge map symmetric, offered edges, connected, n-1 edges."),
("C99","proved",["Verif.Mst.C99_minimum"],"Exchange argument; weights are rationals instead of floats."),
("C100","proved",["Verif.Mst.C100_path"],"Principal components, projection and convex hull not modelled: any order of the isolated hits is allowed. Costs that reach the largest float are not modelled."),
("C101","proved",["Verif.Mst.C101_longest"],"Distances and weights are rationals, the distance is an arbitrary function."),
("C102","proved",["Verif.DBQueue.C102_clusters","Verif.DBQueue.C102_linked","Verif.DBQueue.C102_noise_refuted"],"All hits, neighbourhoods and thresholds; the neighbour search is an arbitrary function. C102_noise_refuted: a border hit looked at before its cluster keeps the noise mark although it is in a cluster (witnessed)."),
("C103","proved",["Verif.DBSet.C103_clusters","Verif.DBSet.C103_agree","Verif.DBSet.C103_asymmetric_refuted"],"neighbourhood as any symmetric reflexive relation on the hits"),
("C104","partial",["Verif.DBNear.C104_pair_symm","Verif.DBNear.C104_read_past_end","Verif.DBNear.C104_no_bridge","Verif.DBNear.C104_leaf","Verif.DBNear.C104_node","Verif.DBNear.C104_query_sound","Verif.DBNear.C104_query_partial","Verif.DBNear.C104_dead_refuted","Verif.DBNear.C104_prune_refuted"],"completeness of the tree search needs the query not to the right of a box: the pruning uses the wrong edge otherwise; the refutations show the general statement false of the code"),
("C105","proved",["Verif.Builder.C105_selected","Verif.Builder.C105_new_hit","Verif.Builder.C105_disjoint","Verif.Builder.C105_nodup"],""),
("C106","proved",["Verif.ClusParams.C106_params","Verif.ClusParams.C106_order","Verif.ClusParams.C106_start_time_refuted","Verif.ClusParams.C106_wire_zero_refuted"],"charges and times as rationals; the two refutations are the exceptions named in the statement"),
("C107","proved",["Verif.C3DOut.C107_particles","Verif.C3DOut.C107_axes_clusters"],""),
("C108","proved",["Verif.C3DOut.C108_space_points","Verif.C3DOut.C108_once","Verif.C3DOut.C108_association","Verif.C3DOut.C108_path_points","Verif.C3DOut.C108_best_refuted"],"the refutation is the exception named in the statement"),
("C109","proved",["Verif.C3DOut.C109_edges","Verif.C3DOut.C109_path_edges","Verif.C3DOut.C109_vertex_edges","Verif.C3DOut.C109_vertex_id_refuted"],"the refutation is the exception named in the statement"),
("C110","proved",["Verif.PMAlg.Tree.C110_connections"],"all forests, all collections of distinct tracks"),
("C111","partial",["Verif.PMAlg.Tree.C111_tree_ids_partial","Verif.PMAlg.Tree.C111_incomplete_refuted"],"proved for collections that hold all tracks of their trees; refuted otherwise"),
("C112","partial",["Verif.PMAlg.Tree.C112_root","Verif.PMAlg.Tree.C112_branches","Verif.PMAlg.Tree.C112_attached_partial","Verif.PMAlg.Tree.C112_daughter_refuted"],"proved for tracks without a parent; IsAttachedTo refuted for daughters"),
("C113","partial",["Verif.PMAlg.Tree.C113_nearest","Verif.PMAlg.Tree.C113_view_alone_partial","Verif.PMAlg.Tree.C113_view_refuted"],"space version proved; view version proved for single tracks and refuted for trees"),
("C114","partial",["Verif.PMAlg.Tree.C114_merge_partial","Verif.PMAlg.Tree.C114_daughter","Verif.PMAlg.Tree.C114_later_refuted"],"Proved for i1 < i2; refuted for i1 > i2 (stale index after erase), which PMAlgStitching.cxx:273 always uses."),
("C115","partial",["Verif.PMAlg.Tree.C115_canFlip","Verif.PMAlg.Tree.C115_flip_partial","Verif.PMAlg.Tree.C115_same_trees","Verif.PMAlg.Tree.C115_unguarded_refuted"],"Proved for tracks for which CanFlip is true; refuted without the guard (several callers do not ask)."),
("C116","partial",["Verif.PMAlg.Tree.C116_insert_partial","Verif.PMAlg.Tree.C116_remove_partial","Verif.PMAlg.Tree.C116_front_refuted"],"Proved away from the front of a branch and for three or more nodes; refuted for both excluded cases."),
("C117","proved",["Verif.PMAlg.Tree.C117_attach"],"Node positions and TPC numbers are parameters."),
("C118","proved",["Verif.TC.C118_store","Verif.TC.C118_end_points","Verif.TC.C118_failed_store_refuted","Verif.TC.C118_many_hits_refuted"],"Charge averages not modelled. Refuted: a trajectory that uses a hit twice is refused but its hits stay marked as owned by a trajectory that does not exist; with more than 16 hits in a point the hits stay marked with the number under construction."),
("C119","partial",["Verif.TC.C119_kill","Verif.TC.C119_restore_partial","Verif.TC.C119_kill_restore","Verif.TC.C119_taken_refuted"],"Restoring keeps the agreement only while all hits of the trajectory are free; refuted otherwise: two trajectories use the same hit."),
("C120","proved",["Verif.TC.C120_split","Verif.TC.C120_no_vertex_refuted","Verif.TC.C120_failed_muon_refuted"],"SetPDGCode is a parameter. Refuted: without a vertex both parts stay attached to both old vertices; a refused split of a muon has removed its code."),
("C121","proved",["Verif.TC.C121_merge","Verif.TC.C121_refuses","Verif.TC.C121_dead_vertex_refuted","Verif.TC.C121_refused_vertex_refuted","Verif.TC.C121_lost_refuted"],"Shower trajectories and the final AttachAnyVertexToTraj are not modelled. Refuted: after a merge across a vertex the new trajectory can be attached to the killed vertex; a refused merge has removed the vertex between the two; with more than 16 hits in a point both originals are lost."),
("C122","proved",["Verif.TC.C122_kill_vertex","Verif.TC.C122_kill_keeps","Verif.TC.C122_3d_stays_refuted","Verif.TC.C122_incomplete_refuted"],"Refuted: the step that makes a 3D vertex with fewer than two 2D vertices obsolete never runs for a live vertex (proved for every slice); it runs when a killed vertex is killed again, which also takes the photon mark from other trajectories."),
("C123","proved",["Verif.TC.C123_kill_3d","Verif.TC.C123_pfp_refuted"],"Refuted: particles stay attached to the killed 3D vertex."),
("C124","proved",["Verif.TC.C124_store_vertex","Verif.TC.C124_vertex_tjs","Verif.TC.C124_wrong_number_refuted","Verif.TC.C124_twice_refuted"],"Refuted: with a wrong number the ends keep the number; a trajectory with both ends at the vertex is listed twice."),
("C125","proved",["Verif.TC.C125_check","Verif.TC.C125_ok_passes","Verif.TC.C125_incomplete_refuted"],"Refuted: the check misses a 3D vertex that names a killed 2D vertex and a trajectory attached to a vertex of another plane."),
("C126","proved",["Verif.TC.C126_ok_passes","Verif.TC.C126_yes_sound","Verif.TC.C126_incomplete_refuted"],"The converse is refuted: several disagreements pass, one makes the check read beyond the end of a list."),
("C127","partial",["Verif.TC.C127_partition","Verif.TC.C127_duplicates_partial","Verif.TC.C127_duplicates_refuted"],"HasDuplicateHits never ends without hits and always answers yes from 65536 hits on."),
("C128","partial",["Verif.TC.C128_reverse","Verif.TC.C128_twice_partial","Verif.TC.C128_angle_refuted","Verif.TC.C128_halo_refuted"],"An angle of exactly -pi comes back as pi."),
("C129","proved",["Verif.Rff.C129_regions"],""),
("C130","proved",["Verif.Rff.C130_groups","Verif.Rff.C130_fit","Verif.Rff.C130_fresh","Verif.Rff.C130_last_tick_refuted"],"exact arithmetic; square root and exponential arbitrary"),
("C131","proved",["Verif.Rff.C131_estimates","Verif.Rff.C131_exact","Verif.Rff.C131_first_tick_refuted"],"exact from the second inner tick on; the first inner tick is refuted"),
("C132","proved",["Verif.Rff.C132_hits","Verif.Rff.C132_charge","Verif.Rff.C132_zero_area_refuted","Verif.Rff.C132_params"],"charge for positive threshold; threshold 0 refuted"),
("C133","proved",["Verif.CandShape.C133_candidates","Verif.CandShape.C133_largest","Verif.CandShape.C133_default_refuted","Verif.CandShape.C133_negative_peak_refuted","Verif.CandShape.C133_offset_refuted"],"for MinDeltaTicks >= 1, MinDeltaPeaks >= 0 and start tick 0 (as GausHitFinder calls it); other settings refuted"),
("C134","proved",["Verif.CandShape.C134_groups"],""),
("C135","proved",["Verif.CandShape.C135_region","Verif.CandShape.C135_threshold_refuted"],""),
("C136","proved",["Verif.CandShape.C136_candidates","Verif.CandShape.C136_regions","Verif.CandShape.C136_nothing_missed","Verif.CandShape.C136_old_refuted"],"start tick 0 and empty output vector, as GausHitFinder calls it"),
("C137","partial",["Verif.Blur.C137_image","Verif.Blur.C137_lost_refuted"],"image exact for every non-empty list of hits; 'no hit is lost' is false (two hits in one bin)"),
("C138","partial",["Verif.Blur.C138_safe","Verif.Blur.C138_partition","Verif.Blur.C138_neighbours","Verif.Blur.C138_own_refuted"],"safety exactly characterised (undefined iff every bin reaches MinSeed); neighbours counted over all clusters, own cluster refuted"),
("C139","proved",["Verif.Blur.C139_seeds","Verif.Blur.C139_maximal","Verif.Blur.C139_components","Verif.Blur.C139_low_seed_refuted"],"exact connected groups when hole filling, removal and time cut are off and MinSeed > ChargeThreshold; hypothesis needed (witness)"),
("C140","partial",["Verif.Blur.C140_convolution","Verif.Blur.C140_fits","Verif.Blur.C140_hits","Verif.Blur.C140_dead_ub_refuted","Verif.Blur.C140_dead_weight_refuted","Verif.Blur.C140_sigma_refuted"],"exact convolution without dead wires; false with dead wires (access out of range, wrong weights) and for widths that are not whole numbers"),
("C141","proved",["Verif.Blur.C141_hits"],"any blurred image of the same width"),
("C142","partial",["Verif.MergeAlg.C142_merge","Verif.MergeAlg.C142_hits","Verif.MergeAlg.C142_lost_refuted","Verif.MergeAlg.C142_order_refuted"],"any pair decision; loss of small clusters and order dependence of PassCuts are refutations"),
("C143","proved",["Verif.TimeSort.points_sound","Verif.TimeSort.points_nodup"],"geometry and time offsets are parameters"),
("C144","partial",["Verif.TimeSort.triples_found_partial","Verif.TimeSort.triples_isolated_partial","Verif.TimeSort.triples_complete_refuted","Verif.TimeSort.triples_edge_refuted"],"full claim false of the code; exact condition proved for different times"),
("C145","partial",["Verif.TimeSort.order_independent_partial","Verif.TimeSort.order_refuted","Verif.TimeSort.empty_undefined"],"holds for different times per plane; false for equal times; undefined exactly when a plane is empty"),
("C146","proved",["Verif.MatchTQ.groups_proper"],"the Kolmogorov test is an arbitrary decision on pairs"),
("C147","partial",["Verif.MatchTQ.grouped_passed_partial","Verif.MatchTQ.passing_pair_partial","Verif.MatchTQ.partner_refuted","Verif.MatchTQ.left_out_refuted"],"full claim false of the code, both halves refuted"),
("C148","partial",["Verif.Stitch.links_partial","Verif.Stitch.link_ends_refuted"],"the ends named are wrong in a reachable case (refuted)"),
("C149","proved",["Verif.Stitch.walk_covers","Verif.Stitch.repeats_refuted"],"repeats inside a composite are possible (refuted), which the claim does not exclude"),
("C150","partial",["Verif.Stitch.join_partial","Verif.Stitch.run_partial","Verif.Stitch.join_loses_refuted"],"tracks are lost in a reachable case (refuted); no loss when the common track is first or last of the later composite"),
("C151","proved",["Verif.Stitch.stitched_points","Verif.Stitch.stitched_reached"],""),
("C152","proved",["Verif.SpAlg.compatible_order","Verif.SpAlg.compatible_two","Verif.SpAlg.compatible_three"],"for hits in different planes when their views differ; rational geometry"),
("C153","proved",["Verif.SpAlg.triples_exact","Verif.SpAlg.pairs_exact","Verif.SpAlg.badSize_never"],"planes of parallel, evenly spaced wires"),
("C154","partial",["Verif.SpAlg.plain_points_partial","Verif.SpAlg.plain_one_tpc_partial","Verif.SpAlg.plain_throws","Verif.SpAlg.repeat_refuted","Verif.SpAlg.throws_refuted"],"exact for one TPC; with several TPCs points are repeated and numbers may collide (refuted)"),
("C155","partial",["Verif.SpAlg.filter_best_partial","Verif.SpAlg.filter_repeat_refuted"],"exact for one TPC; refuted for several TPCs"),
("C156","partial",["Verif.SpAlg.merge_union_partial","Verif.SpAlg.merge_two_view_throws","Verif.SpAlg.merge_tpcs_refuted"],"exact for one TPC and three views; merging two-view points always throws; refuted for several TPCs"),
("C157","proved",["Verif.SpAlg.time_least","Verif.SpAlg.wire_least","Verif.SpAlg.point_least","Verif.SpAlg.wire_errors","Verif.SpAlg.plane_weight_total","Verif.SpAlg.two_hits_on_wires"],"rational arithmetic"),
("C158","proved",["Verif.SpAlg.track_runs","Verif.SpAlg.cut_unique","Verif.SpAlg.track_points"],"hits that are not KHitWireX are skipped before the model begins"),
("C159","proved",["Verif.CMTool.C159_chain_book_describes_final_clusters","Verif.CMTool.C159_edges"],"any chain length, any algorithms"),
("C160","proved",["Verif.CMTool.C160_merged_hits_follow_clusters","Verif.CMTool.C160_append_result","Verif.CMTool.C160_empty_event_refuted"],"non-empty events; on an empty event the getters throw after Process (proved as the third theorem)"),
("C161","partial",["Verif.CMTool.C161_uniform_arrays_partial","Verif.CMTool.C161_mixed_refuted"],"true for all-AND and all-OR arrays; false of the code for mixed arrays (witness)"),
("C162","partial",["Verif.CMTool.C162_priority_modes_partial","Verif.CMTool.C162_product_refuted"],"three of four modes; the product mode always answers 0 (proved)"),
("C163","proved",["Verif.Calo.C163_one_object_per_track_and_plane","Verif.Calo.C163_no_points_undefined"],""),
("C164","proved",["Verif.Calo.C164_residual_range"],""),
("C165","proved",["Verif.Mcs.C165_scan_finds_minimum"],"exact arithmetic"),
("C166","partial",["Verif.Mcs.C166_two_stage_partial","Verif.Mcs.C166_no_uncertainty_refuted","Verif.Mcs.C166_all_rejected_refuted"],"needs an uncertainty from the coarse scan; otherwise false of the code (momentum -1, or out-of-range read)"),
("C167","proved",["Verif.Mcs.C167_segmentation","Verif.Mcs.C167_cumulative_lengths"],""),
("C168","partial",["Verif.Mcs.C168_energy_partial","Verif.Mcs.C168_mip_negative_energy_refuted"],"modes 0 and 2; false of the code in mode 1 (witness)"),
("C169","partial",["Verif.Cosmic.C169_points_partial","Verif.Cosmic.C169_range_partial","Verif.Cosmic.C169_one_hit_per_wire","Verif.Cosmic.C169_plane0_refuted","Verif.Cosmic.C169_swapped_length_refuted","Verif.Cosmic.C169_sptalg1_refuted"],"pairing proved for all inputs; undefined behaviour without hits on plane 0, and the path length used is wrong for opposite wire orders (refuted)"),
("C170","partial",["Verif.Cosmic.C170_positions_partial","Verif.Cosmic.C170_projects_to_foot","Verif.Cosmic.C170_other_side_refuted","Verif.Cosmic.C170_equal_projection_refuted"],"preference for the other side and equal projections are false of the code"),
("C171","proved",["Verif.Cosmic.C171_stitching_gives_components","Verif.Cosmic.C171_no_stitching"],""),
("C172","proved",["Verif.Cosmic.C172_output_consistent","Verif.Cosmic.C172_every_point_once"],""),
("C173","partial",["Verif.Cosmic.C173_trajOnly_partial","Verif.Cosmic.C173_sorted_after_association_refuted"],"false of the code for unsorted trajectories"),
("C174","proved",["Verif.Cosmic.C174_drop_repeats"],""),
("C175","proved",["Verif.Disambig.C175_output","Verif.Disambig.C175_same_time_lost_refuted"],"input hits, valid wires of the channel, distinct keys; a second hit with equal channel and time is lost (shown)"),
("C176","proved",["Verif.Disambig.C176_keeps"],""),
("C177","proved",["Verif.Disambig.C177_terminates","Verif.Disambig.C177_invalid_wire_refuted"],"for channel maps with valid wires; endless loop otherwise (shown)"),
("C178","proved",["Verif.Disambig.C178_crawl_fixpoint"],""),
("C179","partial",["Verif.Disambig.C179_overlap_partial","Verif.Disambig.C179_second_collection_partial","Verif.Disambig.C179_overlap_symm_partial","Verif.Disambig.C179_symmetry_refuted","Verif.Disambig.C179_z_offset_refuted"],"holds if the second hit is on V or the U and Z offsets are zero; false otherwise (refuted)"),
("C180","proved",["Verif.Disambig.C180_trivial"],""),
("C181","partial",["Verif.Disambig.C181_compare_partial","Verif.Disambig.C181_ambiguous_unanimous_refuted"],"exact for decided hits; ambiguous hits alone never decide (refuted)"),
("C182","partial",["Verif.Disambig.C182_endpoint_partial","Verif.Disambig.C182_negative_cone_refuted","Verif.Disambig.C182_reflection_useless","Verif.Disambig.C182_wrap_refuted"],"sound always, exact for angles in [0, pi]; false for negative or backward cones (refuted)"),
("C183","partial",["Verif.Disambig.C183_endpoint_use_partial","Verif.Disambig.C183_two_inductions","Verif.Disambig.C183_no_u","Verif.Disambig.C183_v_only_refuted"],"holds for U and for U with V; V alone is never used (refuted)"),
("C184","partial",["Verif.Disambig.C184_neighbour_partial","Verif.Disambig.C184_wire","Verif.Disambig.C184_covering_window_refuted"],"channel wrap exact; window test exact unless the hit is longer than the range (refuted)"),
("C185","proved",["Verif.Disambig.C185_no_throw"],""),
("C186","proved",["Verif.ApaGeo.C186_bounds"],""),
("C187","partial",["Verif.ApaGeo.C187_first_partial","Verif.ApaGeo.C187_sides","Verif.ApaGeo.C187_apaView","Verif.ApaGeo.C187_second_cryostat_refuted","Verif.ApaGeo.C187_crawl_second_cryostat_refuted"],"views and sizes exact everywhere; first channel right in the first cryostat only (refuted in others)"),
("C188","partial",["Verif.ApaGeo.C188_nearest_partial","Verif.ApaGeo.C188_units_refuted"],"holds for the range as stored; the range is a length, not a number of wires (refuted)"),
("C189","partial",["Verif.ApaGeo.C189_line_partial","Verif.ApaGeo.C189_low_wires_refuted","Verif.ApaGeo.C189_far_wires_refuted"],"exact unless an extended line begins below wire 10 (refuted)"),
("C190","partial",["Verif.ApaGeo.C190_crossings_partial","Verif.ApaGeo.C190_best_partial","Verif.ApaGeo.C190_sides","Verif.ApaGeo.C190_other_tpc_refuted"],"crossings and sides exact; best crossing exact if there is one in the TPC (refuted otherwise)"),
("C191","proved",["Verif.Tta.C191_number_of_points","Verif.Tta.C191_bins"],""),
("C192","partial",["Verif.Tta.C192_always_succeeds","Verif.Tta.C192_single_plane_end_refuted"],"the documented failure does not happen: refuted with a witness"),
("C193","partial",["Verif.Tta.C193_reversed_hits","Verif.Tta.C193_first_of_longest","Verif.Tta.C193_directions_refuted"],"the direction half is false of the code: refuted"),
("C194","partial",["Verif.Tta.C194_points_ordered_partial","Verif.Tta.C194_first_point","Verif.Tta.C194_range_refuted"],"true if the first bin has more than four hits; refuted for exactly four"),
("C195","partial",["Verif.Tta.C195_refused","Verif.Tta.C195_exact_line","Verif.Tta.C195_four_hits_refuted","Verif.Tta.C195_chi_weight_refuted"],"the last two parts are false of the code: refuted"),
("C196","proved",["Verif.VtxFit.C196_closest_pair_first"],""),
("C197","proved",["Verif.VtxFit.C197_closest_approach","Verif.VtxFit.C197_two_track_impact","Verif.VtxFit.C197_parallel_refuted"],"parallel directions, outside the claim, divide by zero"),
("C198","proved",["Verif.VtxFit.C198_symmetric","Verif.VtxFit.C198_minimum","Verif.VtxFit.C198_covariance"],""),
("C199","partial",["Verif.VtxFit.C199_failure_unseen_refuted","Verif.VtxFit.C199_two_tracks_refuted","Verif.VtxFit.C199_add_refuted"],"false of the code: refuted for every marker value"),
("C200","proved",["Verif.VtxFit.C200_fit","Verif.VtxFit.C200_given_position","Verif.VtxFit.C200_significance_cut"],""),
("C201","proved",["Verif.VtxFit.C201_meta"],""),
("C202","proved",["Verif.VtxFit.C202_chi2_is_gain","Verif.VtxFit.C202_singular","Verif.VtxFit.C202_significance_le_chi2","Verif.VtxFit.C202_symmetric"],""),
("C203","proved",["Verif.Tag.C203_cosmic_iff","Verif.Tag.C203_same_tracks","Verif.Tag.C203_off","Verif.Tag.C203_again"],""),
("C204","partial",["Verif.Tag.C204_saved_partial","Verif.Tag.C204_saved_exactly","Verif.Tag.C204_only_met_refuted"],"every criterion met is saved; others are saved too because the flags overlap (refuted); exact table proved"),
("C205","partial",["Verif.Tag.C205_count_partial","Verif.Tag.C205_count_refuted"],"between the number of tracks and seven times it; not equal (refuted)"),
("C206","partial",["Verif.Tag.C206_orientation_partial","Verif.Tag.C206_orientation_refuted"],"holds for ends at different heights and without the dE/dx veto; false with it (refuted)"),
("C207","proved",["Verif.Tag.C207_dimensions"],""),
("C208","proved",["Verif.Tag.C208_few_values","Verif.Tag.C208_veto"],""),
("C209","partial",["Verif.Tag.C209_t0_partial","Verif.Tag.C209_zero_t0_refuted"],"holds for a T0 different from zero; false for zero (refuted)"),
("C210","partial",["Verif.Tta.C210_first_bin_partial","Verif.Tta.C210_later_bins_partial","Verif.Tta.C210_overlap_refuted"],"true of the first point; later bins skip the hits before the last hit of the bin before: refuted"),
("C211","proved",["Verif.PMAlg.Tree.C211_shift","Verif.PMAlg.Tree.C211_one_node_branch"],"tracks of two nodes or more; C211_one_node_branch shows the condition is needed"),
("C212","proved",["Verif.PMAlg.Tree.C212_objective","Verif.PMAlg.Tree.C212_update"],""),
("C213","proved",["Verif.PMAlg.Tree.C213_calls"],""),
("C214","proved",["Verif.PMAlg.Tree.C214_t0_linear","Verif.PMAlg.Tree.C214_shifts_add"],""),
("C215","proved",["Verif.PmaStitch.C215_symmetric","Verif.PmaStitch.C215_scale","Verif.PmaStitch.C215_zero_iff","Verif.PmaStitch.C215_no_score"],""),
("C216","proved",["Verif.PmaStitch.C216_best_shift","Verif.PmaStitch.C216_within"],"exact arithmetic: the floating-point loop may miss the last point"),
("C217","partial",["Verif.PmaStitch.C217_best_partner","Verif.PmaStitch.C217_score_ends","Verif.PmaStitch.C217_first_at_surface_partial","Verif.PmaStitch.C217_second_at_surface_refuted","Verif.PmaStitch.C217_directions_refuted"],"the choice is proved; the position of the second end and the directions are refuted"),
("C218","partial",["Verif.PmaStitch.C218_ends_meet","Verif.PmaStitch.C218_same_tree_refuted"],"joining proved; for two tracks of one tree the shifts cancel: refuted"),
("C219","partial",["Verif.PmaStitch.C219_rounds_partial"],"only if no flip adds tracks to the collection"),
("C220","proved",["Verif.PmaStitch.C220_cathode","Verif.PmaStitch.C220_lookup"],""),
("C221","proved",["Verif.EmShower.C221_associations","Verif.EmShower.C221_ignored_left_out"],"exact characterisation of both maps"),
("C222","partial",["Verif.EmShower.C222_showers_partial","Verif.EmShower.C222_no_repeat","Verif.EmShower.C222_disjoint_iff","Verif.EmShower.C222_one_shower_refuted"],"one shower per cluster is false of the code (refuted with a witness; disjointness characterised exactly); the rest is proved"),
("C223","partial",["Verif.EmShower.C223_mean_share","Verif.EmShower.C223_bad_plane","Verif.EmShower.C223_every_shower_refuted"],"proved for the first shower; false for the others (refuted)"),
("C224","partial",["Verif.EmShower.C224_tracks_found","Verif.EmShower.C224_output_partial","Verif.EmShower.C224_numbers_refuted","Verif.EmShower.C224_selection_refuted","Verif.EmShower.C224_space_points_refuted","Verif.EmShower.C224_point_numbers_partial"],"clusters and tracks proved; numbers, selection and space points are false of the code (refuted)"),
("C225","partial",["Verif.EmShower.C225_order_partial","Verif.EmShower.C225_keeps_all_refuted"],"order proved; hits of equal projection are lost (refuted)"),
("C226","partial",["Verif.EmShower.C226_no_loss","Verif.EmShower.C226_no_throw","Verif.EmShower.C226_one_hit_partial","Verif.EmShower.C226_two_hits_refuted","Verif.EmShower.C226_moved_few"],"no loss and no failure proved; the right hits are moved only if there is one (refuted for two)"),
("C227","partial",["Verif.EmShower.C227_result","Verif.EmShower.C227_finds_partial","Verif.EmShower.C227_widths","Verif.EmShower.C227_equal_widths_refuted","Verif.EmShower.C227_desired_plane_refuted"],"proved for different widths; equal widths and a desired plane refuted"),
("C228","proved",["Verif.EmShower.C228_worst_plane","Verif.EmShower.C228_track_planes"],"for all wire widths and numbers of hits"),
("C229","partial",["Verif.EmShower.C229_start_partial","Verif.EmShower.C229_distinct_refuted","Verif.EmShower.C229_two_hits_refuted","Verif.EmShower.C229_wire_all"],"different hits and at least two are false of the code (refuted); the rest is proved"),
("C230","partial",["Verif.EmShower.C230_points","Verif.EmShower.C230_once_partial","Verif.EmShower.C230_complete_two","Verif.EmShower.C230_once_refuted"],"the hit of a third plane can be used again (refuted); the rest is proved"),
("C231","partial",["Verif.EmShower.C231_dqdx_partial","Verif.EmShower.C231_long_pitch","Verif.EmShower.C231_no_track","Verif.EmShower.C231_equal_pitch_refuted","Verif.EmShower.C231_no_pitch_refuted"],"pitch 0 or equal to the length refuted; the rest is proved"),
("C232","partial",["Verif.EmShower.C232_start","Verif.EmShower.C232_directions_partial","Verif.EmShower.C232_directions_refuted","Verif.EmShower.C232_one_point_refuted"],"start proved; directions only for tracks that are not reversed (refuted for the others)"),
("C233","partial",["Verif.EmShower.C233_shower_partial","Verif.EmShower.C233_throws_iff","Verif.EmShower.C233_refuted"],"throws exactly if a plane with hits has no initial hits (refuted); the rest is proved"),
("C234","proved",["Verif.EmShower.C234_two_planes","Verif.EmShower.C234_start","Verif.EmShower.C234_symmetric","Verif.EmShower.C234_best_plane"],"with the order of the points relevant only for equal distances"),
("C235","proved",["Verif.EmShower.C235_order","Verif.EmShower.C235_tpc","Verif.EmShower.C235_initial"],"for every number of passes"),
("C236","proved",["Verif.EmShower.C236_fit","Verif.EmShower.C236_no_fit","Verif.EmShower.C236_gradient"],"exact arithmetic"),
("C237","proved",["Verif.EmShower.C237_clean"],"exact characterisation"),
("C238","proved",["Verif.EmShower.C238_centre"],"exact arithmetic"),
("C239","partial",["Verif.EmShower.C239_segment_partial","Verif.EmShower.C239_monotone","Verif.EmShower.C239_last_refuted"],"the last hit is in one more segment (refuted for every shower)"),
("C240","partial",["Verif.Gaus.C240_pieces","Verif.Gaus.C240_covers_partial","Verif.Gaus.C240_capped","Verif.Gaus.C240_area","Verif.Gaus.C240_refuted"],"Coverage and the bound LongMaxHits are false of the code when the number is limited (exact condition proved)."),
("C241","partial",["Verif.Gaus.C241_windows_partial","Verif.Gaus.C241_extent","Verif.Gaus.C241_refuted"],"Proved for peaks in order of time with amplitudes, inside the pulse, before tick 9999; false after a skipped peak."),
("C242","partial",["Verif.Gaus.C242_sums_partial","Verif.Gaus.C242_long","Verif.Gaus.C242_refuted"],"Proved for peaks in order of time, and for all long pulses before tick 9999; false for peaks out of order."),
("C243","partial",["Verif.Gaus.C243_filter_partial","Verif.Gaus.C243_good","Verif.Gaus.C243_refuted"],"False with several largest hits of which only some pass the cuts; proved otherwise."),
("C244","partial",["Verif.Gaus.C244_schedule","Verif.Gaus.interleave_exists","Verif.Gaus.C244_refuted"],"The order of the collection depends on the schedule; the multiset and the order within a task do not."),
("C245","partial",["Verif.Gaus.C245_products_partial","Verif.Gaus.C245_fillOut","Verif.Gaus.C245_refuted"],"False with a name and without the filter."),
("C246","partial",["Verif.Gaus.C246_long_partial","Verif.Gaus.C246_error_value","Verif.Gaus.C246_refuted"],"Charge of long pulses that are not limited; the error is not an error of the charge."),
("C247","partial",["Verif.Gaus.C247_limits_partial","Verif.Gaus.C247_identity","Verif.Gaus.C247_refuted"],"False for narrow candidates and for candidates below the baseline."),
("C248","partial",["Verif.Gaus.C248_nearest_partial","Verif.Gaus.C248_refuted"],"False once a candidate is before a peak."),
("C249","partial",["Verif.Gaus.C249_multiplicity_partial","Verif.Gaus.C249_atMost","Verif.Gaus.C249_other_pulses","Verif.Gaus.C249_refuted"],"False with the refit."),
("C250","proved",["Verif.Gnocchi.C250_partition","Verif.Gnocchi.C250_individual"],""),
("C251","partial",["Verif.Gnocchi.C251_snippets","Verif.Gnocchi.C251_refuted"],"same wire number, start and end proved; hits of different TPCs are merged (refuted)"),
("C252","partial",["Verif.Gnocchi.C252_conserved","Verif.Gnocchi.C252_refuted"],"proved for the methods with integrals; false for the sum of the region of interest"),
("C253","partial",["Verif.Gnocchi.C253_residual","Verif.Gnocchi.C253_reverse_partial","Verif.Gnocchi.C253_monotone","Verif.Gnocchi.C253_refuted"],"false if the two ways to match the ends are equally long"),
("C254","proved",["Verif.Gnocchi.C254_objects","Verif.Gnocchi.C254_rows"],""),
("C255","partial",["Verif.Gnocchi.C255_lookup_partial","Verif.Gnocchi.C255_refuted"],"for hits with one entry; false with several"),
("C256","partial",["Verif.Gnocchi.C256_direction_partial","Verif.Gnocchi.C256_short","Verif.Gnocchi.C256_refuted"],"by the first and last four hits; false for up to four hits"),
("C257","partial",["Verif.Gnocchi.C257_exact","Verif.Gnocchi.C257_closest_partial","Verif.Gnocchi.C257_count","Verif.Gnocchi.C257_refuted"],"exact characterisation; the claim is false"),
("C258","partial",["Verif.Gnocchi.C258_nearest","Verif.Gnocchi.C258_refuted"],"false for space points at the same distance"),
("C259","partial",["Verif.Gnocchi.C259_rows_partial","Verif.Gnocchi.C259_refuted"],"the code leaves the pitch out and writes rows of zeros"),
("C260","partial",["Verif.CaloAlg.C260_inverse","Verif.CaloAlg.C260_strictMono","Verif.CaloAlg.C260_nonneg_partial","Verif.CaloAlg.C260_zero","Verif.CaloAlg.C260_refuted"],"energy for no charge unless the parameter is one"),
("C261","partial",["Verif.CaloAlg.C261_inverse","Verif.CaloAlg.C261_below_partial","Verif.CaloAlg.C261_above","Verif.CaloAlg.C261_refuted"],"negative above the pole"),
("C262","proved",["Verif.CaloAlg.C262_lifetime","Verif.CaloAlg.C262_recovers"],""),
("C263","proved",["Verif.CCrawl.C263_stored_iff","Verif.CCrawl.C263_stored"],""),
("C264","partial",["Verif.CCrawl.C264_failed_partial","Verif.CCrawl.C264_refuted"],"marks set before the failure stay (refuted); clusters, numbers and marks of used hits do not change"),
("C265","partial",["Verif.CCrawl.C265_reads_partial","Verif.CCrawl.C265_refuted"],"false for clusters of two hits"),
("C266","proved",["Verif.CCrawl.C266_kill_restore","Verif.CCrawl.C266_refuted"],"C266_refuted shows the limit: restoring after the hits were used again breaks the invariant (no call does that, C267)"),
("C267","proved",["Verif.CCrawl.C267_history"],""),
("C268","partial",["Verif.CCrawl.C268_marks_partial","Verif.CCrawl.C268_refuted"],"holds for histories without a failed store; false after one"),
("C269","partial",["Verif.CCrawl.C269_split_partial","Verif.CCrawl.C269_lost","Verif.CCrawl.C269_refuted"],"exact for at least three hits before and four after the split; otherwise false (cluster lost, or an unrelated one deleted)"),
("C270","proved",["Verif.CCrawl.C270_merged","Verif.CCrawl.C270_limit"],"C270_limit: at 32767 clusters both are lost"),
("C271","partial",["Verif.CCrawl.C271_overlap_begin_partial","Verif.CCrawl.C271_refuted"],"the end vertex is wrong"),
("C272","partial",["Verif.CCrawl.C272_remove_partial","Verif.CCrawl.C272_refuted"],"for exact marks (C268); stray marks make it look at a cluster that does not exist"),
("C273","partial",["Verif.CCrawl.C273_shorten_partial","Verif.CCrawl.C273_replaced","Verif.CCrawl.C273_refuted"],"if the store succeeds; false otherwise"),
("C274","proved",["Verif.CCrawl.C274_duplicates"],""),
("C275","proved",["Verif.CCrawl.C275_ranges","Verif.CCrawl.C275_first_last"],""),
("C276","proved",["Verif.CCrawl.C276_dead"],""),
("C277","partial",["Verif.CCrawl.C277_killed_partial","Verif.CCrawl.C277_close_partial","Verif.CCrawl.C277_first_stays","Verif.CCrawl.C277_refuted"],"the closeness of hits is judged on different wires if the earlier cluster ends at the higher wire"),
("C278","partial",["Verif.CCrawl.C278_merged_partial","Verif.CCrawl.C278_exists","Verif.CCrawl.C278_refuted"],"a merge keeps the charge; hits are lost if the signal sum is zero"),
("C279","proved",["Verif.KalFit.C279_masks"],""),
("C280","proved",["Verif.KalFit.C280_placed"],"Planes below MaxPlanes assumed for the sorting by plane."),
("C281","partial",["Verif.KalFit.C281_not_used_partial","Verif.KalFit.C281_refuted"],"False with pickBestHitOnWire."),
("C282","partial",["Verif.KalFit.C282_row_partial","Verif.KalFit.C282_refuted"],"NoPoint is not looked at."),
("C283","proved",["Verif.KalFit.C283_plane_order"],""),
("C284","proved",["Verif.KalFit.C284_enough"],""),
("C285","proved",["Verif.KalFit.C285_cleaned","Verif.KalFit.C285_ends"],""),
("C286","partial",["Verif.KalFit.C286_nothing_lost_partial","Verif.KalFit.C286_refuted"],"False with sortOutputHitsMinLength and an excluded first point."),
("C287","partial",["Verif.KalFit.C287_points","Verif.KalFit.C287_momentum_partial","Verif.KalFit.C287_refuted"],"Momentum only up to the first point that is not valid."),
("C288","partial",["Verif.KalFit.C288_both","Verif.KalFit.C288_single","Verif.KalFit.C288_refuted"],"The backward fit starts at the vertex."),
("C289","partial",["Verif.KalFit.C289_masks_grow_partial","Verif.KalFit.C289_first_partial","Verif.KalFit.C289_refuted"],"False: masks of the first attempt are kept."),
("C290","partial",["Verif.KalFit.C290_all_hits_partial","Verif.KalFit.C286_refuted"],"False with sortOutputHitsMinLength."),
("C291","proved",["Verif.Book.C291_matrix","Verif.Book.C291_plane","Verif.Book.C291_number"],"All histories of calls on a new object."),
("C292","partial",["Verif.Book.C292_read_partial","Verif.Book.C292_refuted"],"True of booked keys and of keys never named; false of keys that a refused setMatrix or bookNumbers has named (null pointer)."),
("C293","partial",["Verif.Book.C293_matrices","Verif.Book.C293_planes","Verif.Book.C293_numbers_partial","Verif.Book.C293_refuted"],"Proved for matrices and planes; bookNumbers tests the planes: what it does is proved, the claim is refuted."),
("C294","partial",["Verif.Book.C294_roundtrip_partial","Verif.Book.C294_refuted"],"Proved unless a key is used for numbers and planes; then reading back throws (refuted)."),
("C295","partial",["Verif.Book.C295_reset_partial","Verif.Book.C295_refuted"],"Proved unless a key is used for numbers and planes; then it throws (refuted)."),
("C296","proved",["Verif.Book.C296_failed"],"All histories."),
("C297","partial",["Verif.Book.C297_copy_partial","Verif.Book.C297_refuted"],"Proved when no entry is null; after GFDaf's calls copying crashes (refuted)."),
("C298","proved",["Verif.FFTHit.C298_peaks"],"All signals."),
("C299","proved",["Verif.FFTHit.C299_windows"],"All signals."),
("C300","partial",["Verif.FFTHit.C300_disjoint_partial","Verif.FFTHit.C300_refuted"],"True when no two neighbouring ticks are equal; false otherwise (witness)."),
("C301","proved",["Verif.FFTHit.C301_groups"],"All signals."),
("C302","partial",["Verif.FFTHit.C302_window_partial","Verif.FFTHit.C302_refuted"],"True with a threshold that is not negative; with a negative one the search leaves the signal."),
("C303","partial",["Verif.FFTHit.C303_hits_partial","Verif.FFTHit.C303_refuted"],"All but the positive charge, which is false (witness)."),
("C305","partial",["Verif.TTHit.C305_reads_partial","Verif.TTHit.C305_refuted"],"False: one tick beyond the end is read; that it is never more is proved."),
("C306","partial",["Verif.TTHit.C306_centre_partial","Verif.TTHit.C306_refuted"],"True for odd, false for even widths."),
("C307","proved",["Verif.RawHit.C307_runs"],"All waveforms."),
("C308","proved",["Verif.RawHit.C308_peak_charge"],"All waveforms."),
("C309","partial",["Verif.RawHit.C309_width_partial","Verif.RawHit.C309_refuted"],"True if no tick of the widened run is negative; false otherwise (witness)."),
("C310","partial",["Verif.RawHit.C310_summed_partial","Verif.RawHit.C310_refuted"],"False: the last tick is missing; that it is only that one is proved."),
("C311","proved",["Verif.RawHit.C311_dips"],"All waveforms."),
("C312","partial",["Verif.RawHit.C312_charge_partial","Verif.RawHit.C312_refuted"],"False: the first tick counts twice; that this is the only difference is proved."),
("C313","partial",["Verif.RawHit.C313_time_partial","Verif.RawHit.C313_refuted"],"True with a positive tick before and no tick of exactly zero; false otherwise (witnesses)."),
("C314","proved",["Verif.CCHit.C314_regions","Verif.CCHit.C314_end_refuted"],""),
("C315","partial",["Verif.CCHit.C315_hit_partial","Verif.CCHit.C315_thousand_refuted"],"false for a region of 1000 ticks"),
("C316","proved",["Verif.CCHit.C316_group"],""),
("C318","proved",["Verif.CCHit.C318_summed"],""),
("C319","proved",["Verif.CCHit.C319_crude"],""),
("C320","partial",["Verif.CCHit.C320_stats_partial","Verif.CCHit.C320_refuted"],"false with a region of 1000 ticks"),
("C321","proved",["Verif.CCHit.C321_run"],""),
("C322","partial",["Verif.LineMerge.C322_groups_partial","Verif.LineMerge.C322_hits_partial","Verif.LineMerge.C322_refuted"],"Proved when clusters of a view are on one plane; refuted otherwise: the second of two matching clusters on different planes is lost."),
("C323","proved",["Verif.LineMerge.C323_once"],""),
("C324","partial",["Verif.LineMerge.C322_groups_partial","Verif.LineMerge.C324_end_refuted"],"Start proved (in MadeOf); the end is the lowest end wire, so the spanning claim is refuted."),
("C325","partial",["Verif.LineMerge.C322_groups_partial","Verif.LineMerge.C325_order_refuted"],"Parts stay consecutive (MadeOf.blocks); their order is refuted."),
("C326","proved",["Verif.LineMerge.C326_symmetric","Verif.LineMerge.C326_criterion"],""),
("C327","proved",["Verif.LineMerge.C327_unchanged"],""),
("C328","partial",["Verif.LineMerge.C328_none_partial","Verif.LineMerge.C328_refuted"],"Without matching clusters nothing changes; completeness and order independence refuted."),
("C329","proved",["Verif.SmallClus.C329_once","Verif.SmallClus.C329_nonempty"],"No empty cluster given hits within the radius of themselves."),
("C330","partial",["Verif.SmallClus.C330_ends","Verif.SmallClus.C330_endless","Verif.SmallClus.C330_refuted"],"Ends for a positive radius; refuted for a radius of 0 or less."),
("C331","proved",["Verif.SmallClus.C331_small"],""),
("C332","partial",["Verif.SmallClus.C332_shape","Verif.SmallClus.C332_apart","Verif.SmallClus.C332_refuted","Verif.SmallClus.C332_tpc_refuted"],"The shape is proved; near hits in one cluster, and one TPC per cluster, are refuted."),
("C333","partial",["Verif.SmallClus.C333_ids_partial","Verif.SmallClus.C333_refuted"],"Unique with fewer than 100 small clusters per plane; refuted otherwise."),
("C334","partial",["Verif.SmallClus.C334_products","Verif.SmallClus.C334_refuted"],"Exactly the events without hits get no products."),
("C335","proved",["Verif.SmallClus.C335_energy","Verif.SmallClus.C335_order","Verif.SmallClus.C335_additive","Verif.SmallClus.C335_mono"],"C335_refuted: without hits the intercept is returned."),
("C304","partial",["Verif.TTHit.C304_hit_partial","Verif.TTHit.C304_wire","Verif.TTHit.C304_width","Verif.TTHit.C304_refuted"],"True unless the charge is -999 (witness)."),
("C317","proved",["Verif.CCHit.C317_sane","Verif.CCHit.C317_bumps","Verif.CCHit.C317_stale_refuted"],"false for a limit above 9999, which is not in the range of the claim"),
("C336","partial",["Verif.CMAlgos.C336_symmetric_partial","Verif.CMAlgos.C336_com_partial","Verif.CMAlgos.C336_separate_refuted","Verif.CMAlgos.C336_com_refuted"],"Symmetry proved for twelve algorithms and for CenterOfMass when small and big exclude each other; false for AngleSeparate and for CenterOfMass otherwise (refuted)."),
("C337","partial",["Verif.CMAlgos.C337_criterion","Verif.CMAlgos.C337_refuted"],"Criterion proved for the difference of the numbers; directions are not compared modulo a full turn (refuted)."),
("C338","proved",["Verif.CMAlgos.C338_complement","Verif.CMAlgos.C338_align"],""),
("C339","partial",["Verif.CMAlgos.C339_criterion_partial","Verif.CMAlgos.C339_same","Verif.CMAlgos.C339_default","Verif.CMAlgos.C339_refuted"],"Proved when no number of hits is small and big; false otherwise (refuted)."),
("C340","partial",["Verif.CMAlgos.C340_least_partial","Verif.CMAlgos.C340_upper","Verif.CMAlgos.C340_refuted"],"Proved for squared lengths of at least 0.1; false for shorter segments (refuted)."),
("C341","proved",["Verif.CMAlgos.C341_com","Verif.CMAlgos.C341_refuted"],""),
("C342","proved",["Verif.CMAlgos.C342_value","Verif.CMAlgos.C342_order"],""),
("C343","partial",["Verif.CMAlgos.C343_range","Verif.CMAlgos.C343_overlap_partial","Verif.CMAlgos.C343_refuted"],"Value and order proved when all clusters overlap in the sense of the code; order dependence in general (refuted)."),
("C344","partial",["Verif.CMAlgos.C344_range","Verif.CMAlgos.C344_refuted","Verif.CMAlgos.C344_zero_refuted"],"Range proved; independence of the order and of a shift is false (refuted)."),
("C345","proved",["Verif.CMAlgos.C345_criterion","Verif.CMAlgos.C345_order"],""),
("C346","proved",["Verif.CMAlgos.C346_priority","Verif.CMAlgos.C346_tracks","Verif.CMAlgos.C346_refuted"],"For non-negative cuts; a negative cut on the charge is shown not to work."),
("C347","partial",["Verif.DPHit.C347_candidates_partial","Verif.DPHit.C347_refuted","Verif.DPHit.C347_max_refuted"],"Proved up to the last tick: the end of a candidate may be one after the region and its signal may be above the maximum (refuted by witnesses)."),
("C348","partial",["Verif.DPHit.C348_positive_partial","Verif.DPHit.C348_refuted"],"Proved where the search stepped; refuted for the short remainders."),
("C349","partial",["Verif.DPHit.C349_complete_partial","Verif.DPHit.C349_refuted"],"Proved for stretches longer than four ticks; shorter ones are not searched (refuted)."),
("C350","proved",["Verif.DPHit.C350_groups"],""),
("C351","proved",["Verif.DPHit.C350_groups"],"The chain conditions of the groups and between groups are the criterion in both directions."),
("C352","proved",["Verif.DPHit.C352_fluctuations"],""),
("C353","proved",["Verif.DPHit.C353_more"],""),
("C354","proved",["Verif.DPHit.C354_refit"],""),
("C355","partial",["Verif.DPHit.C355_long_partial","Verif.DPHit.C355_refuted","Verif.DPHit.C355_history_refuted"],"Ordered division proved; complete coverage, the limit on the number and independence of other groups are refuted."),
("C356","partial",["Verif.DPHit.C356_sum","Verif.DPHit.C356_noise_partial","Verif.DPHit.C356_hits_partial","Verif.DPHit.C356_refuted"],"Proved for integer signals; refuted in general because of the int accumulator."),
("C357","partial",["Verif.DPHit.C357_terms_partial","Verif.DPHit.C357_refuted","Verif.DPHit.C357_distinct"],"Proved if all peaks share a shape; refuted otherwise."),
("C358","proved",["Verif.DPHit.C358_limits"],""),
("C359","partial",["Verif.DPHit.C359_average_partial","Verif.DPHit.C359_constant_partial","Verif.DPHit.C359_refuted"],"Proved for regions at least half a window long; refuted otherwise."),
("C360","proved",["Verif.DPHit.C360_region","Verif.DPHit.C360_hits","Verif.DPHit.C360_numbers"],"The fit is an arbitrary function; the tick after the region is possible as end (C347)."),
("C361","partial",["Verif.DataProv.C361_all","Verif.DataProv.C361_range","Verif.DataProv.C361_zero_partial","Verif.DataProv.C361_zero_refuted"],"The zero level is the scaled 0 only if 0 is within the ADC limits; refuted otherwise."),
("C362","proved",["Verif.DataProv.C362_max"],""),
("C363","proved",["Verif.DataProv.C363_mean"],""),
("C364","partial",["Verif.DataProv.C364_maxMean_partial","Verif.DataProv.C364_refuted"],"The value may exceed the maximum of the window and the lifetime table may be read beyond its end (refuted)."),
("C365","partial",["Verif.DataProv.C365_image_partial","Verif.DataProv.C365_refuted"],"Fails for signals longer than the number of time samples with the mean around the maximum."),
("C366","proved",["Verif.DataProv.C366_pixel"],""),
("C367","proved",["Verif.DataProv.C367_pool"],""),
("C368","partial",["Verif.DataProv.C368_blur_partial","Verif.DataProv.C368_constant","Verif.DataProv.C368_refuted"],"Fails for images with fewer wires than the right half of the kernel."),
("C369","partial",["Verif.DataProv.C369_patch_partial","Verif.DataProv.C369_refuted","Verif.DataProv.C369_odd_refuted"],"Holds for even sizes and a patch provided by the caller; getPatch itself always writes outside its vector."),
("C370","partial",["Verif.DataProv.C370_patch_partial","Verif.DataProv.C370_refuted","Verif.DataProv.C370_scaled_refuted"],"Holds inside the image; refuted at its edges."),
("C371","proved",["Verif.PmaUtil.C371_projection"],""),
("C372","partial",["Verif.PmaUtil.C372_nearest","Verif.PmaUtil.C372_value_partial","Verif.PmaUtil.C372_none","Verif.PmaUtil.C372_refuted"],"The returned number is undefined when one line has two equal points (refuted); the point is right in all cases."),
("C373","proved",["Verif.PmaUtil.C373_radius"],""),
("C374","proved",["Verif.PmaUtil.C374_views"],""),
("C375","partial",["Verif.PmaUtil.C375_orders_partial","Verif.PmaUtil.C375_refuted","Verif.PmaUtil.C375_segment_refuted"],"Refuted for null pointers and for the order along a segment, which never orders anything."),
("C376","proved",["Verif.PmaUtil.C376_long","Verif.PmaUtil.C376_bounds","Verif.PmaUtil.C376_sym","Verif.PmaUtil.C376_refuted"],"C376_refuted shows what the factor 1.0001 costs: the value is not the distance, and does not always order segments by distance."),
("C377","partial",["Verif.PmaUtil.C377_point","Verif.PmaUtil.C377_set_partial","Verif.PmaUtil.C377_refuted"],"For a short projection the fraction given to the hit is 0 although its point is the middle of the segment."),
("C378","partial",["Verif.PmaUtil.C378_weights_partial","Verif.PmaUtil.C378_refuted","Verif.PmaUtil.C378_around_partial","Verif.PmaUtil.C378_around_refuted"],"Not monotone at amplitude 0; only the first of several next elements is used."),
("C379","partial",["Verif.PmaUtil.C379_count_partial","Verif.PmaUtil.C379_changed","Verif.PmaUtil.C379_refuted"],"The bound is one and a half times the maximum; own hits may be dropped because of the neighbours' hits."),
("C380","partial",["Verif.ClusMatch.C380_info_partial","Verif.ClusMatch.C380_refuted"],"The charge is one less than the sum, and maxima hold for times of at least -1 only (refuted otherwise)."),
("C381","partial",["Verif.ClusMatch.C381_sym","Verif.ClusMatch.C381_overlap_partial","Verif.ClusMatch.C381_refuted"],"For clusters with hits; two clusters without hits overlap (refuted)."),
("C382","partial",["Verif.ClusMatch.C382_charge_partial","Verif.ClusMatch.C382_refuted"],"The fraction is of the second cluster, so the test depends on the order (refuted)."),
("C383","partial",["Verif.ClusMatch.C383_z_partial","Verif.ClusMatch.C383_refuted"],"When both pairs of end wires cross, and when the last ones do not; clusters whose first wires do not cross may pass (refuted)."),
("C384","partial",["Verif.ClusMatch.C384_two_partial","Verif.ClusMatch.C384_id_refuted"],"With clusters in some plane; the numbers reported are cut to 16 bits (refuted)."),
("C385","partial",["Verif.ClusMatch.C385_three_partial","Verif.ClusMatch.C384_id_refuted"],"With clusters in some plane; the numbers reported are cut to 16 bits (refuted)."),
("C386","partial",["Verif.ClusMatch.C386_debug_partial","Verif.ClusMatch.C386_refuted"],"If at least one space point is asked for; refuted otherwise."),
("C387","partial",["Verif.ClusMatch.C387_third_partial","Verif.ClusMatch.C387_refuted"],"For two-plane detectors or without the space point test; refuted otherwise."),
("C388","partial",["Verif.ClusMatch.C388_history_partial","Verif.ClusMatch.C388_refuted"],"If the later event has clusters; refuted otherwise."),
("C389","partial",["Verif.ClusMatch.C389_space_partial","Verif.ClusMatch.C389_refuted"],"Without time offsets between planes; refuted with them."),
("C390","partial",["Verif.PrimVtx.C390_sym_partial","Verif.PrimVtx.C390_sym_refuted"],"If both points are near the starts; refuted otherwise."),
("C391","proved",["Verif.PrimVtx.C391_close"],"Exact for unit directions."),
("C392","proved",["Verif.PrimVtx.C392_alone"],""),
("C393","proved",["Verif.PrimVtx.C393_all"],""),
("C394","proved",["Verif.PrimVtx.C394_close"],""),
("C395","partial",["Verif.PrimVtx.C395_one_partial","Verif.PrimVtx.C395_refuted"],"If closeness is transitive; refuted otherwise."),
("C396","proved",["Verif.PrimVtx.C396_position"],""),
("C397","partial",["Verif.GFPlane.C397_axes","Verif.GFPlane.C397_throws","Verif.GFPlane.C397_refuted"],"Exact, except that a zero first vector is accepted (refuted)."),
("C398","proved",["Verif.GFPlane.C398_normal"],"Over the reals."),
("C399","proved",["Verif.GFPlane.C399_inverse"],"Over the reals."),
("C400","partial",["Verif.GFPlane.C400_line_partial","Verif.GFPlane.C400_refuted"],"For lines at an angle of at least 10^-6 to the plane; others get 10^100 (refuted)."),
("C401","partial",["Verif.GFPlane.C401_equal_partial","Verif.GFPlane.C401_refuted"],"Reflexive, symmetric and characterised; not transitive (refuted)."),
("C402","partial",["Verif.GFPlane.C402_history_partial","Verif.GFPlane.C402_refuted"],"For calls without zero vectors; refuted with a zero first axis."),
("C403","proved",["Verif.GFPlane.C403_distance"],"Over the reals."),
("C404","partial",["Verif.Seg2D.C404_hits_partial","Verif.Seg2D.C404_refuted"],"the hits of the parts and at most one hit left are the hits of the cluster; that no hit is lost is false: the last single hit is in no part"),
("C405","partial",["Verif.Seg2D.C405_ends_partial","Verif.Seg2D.C405_run_partial","Verif.Seg2D.C405_refuted"],"for a line distance other than 0 and a positive inner radius; false without: with line distance 0 no number of rounds suffices"),
("C406","proved",["Verif.Seg2D.C406_dense"],"parts are not empty in the code (C412); the model gives an empty part the origin as ends"),
("C407","proved",["Verif.Seg2D.C407_merge"],""),
("C408","partial",["Verif.Seg2D.C408_ends_partial","Verif.Seg2D.C408_refuted"],"for DenseMinNVtx of 1 and more; false for 0"),
("C409","partial",["Verif.Seg2D.C409_merge_partial","Verif.Seg2D.C409_refuted","Verif.Seg2D.C409_refuted_tag","Verif.Seg2D.C409_refuted_choice"],"exact result if no part is tagged and the first index is the smallest; false otherwise"),
("C410","proved",["Verif.Seg2D.C410_split","Verif.Seg2D.C410_all"],""),
("C411","proved",["Verif.Seg2D.C411_naive"],""),
("C412","proved",["Verif.Seg2D.C412_segments","Verif.Seg2D.C412_first"],""),
("C413","proved",["Verif.Seg2D.C413_output","Verif.Seg2D.C413_ends","Verif.Seg2D.C413_huge"],""),
("C414","proved",["Verif.TrkSep.C414_final"],""),
("C415","partial",["Verif.TrkSep.C415_first_partial","Verif.TrkSep.C415_cylinder","Verif.TrkSep.C415_refuted","Verif.TrkSep.C415_refuted_nan"],"if each track has space points and the mean is positive; false otherwise: with mean 0 or a track without points nothing is marked"),
("C416","partial",["Verif.TrkSep.C416_second_partial","Verif.TrkSep.C416_refuted"],"soundness, and completeness towards tracks of the first pass and tracks of smaller key; false in general: one pass in order of keys"),
("C417","proved",["Verif.TrkSep.C417_cones","Verif.TrkSep.C417_decision"],""),
("C418","proved",["Verif.TrkSep.C418_noop"],""),
("C419","proved",["Verif.TrkSep.C419_hits"],""),
("C420","partial",["Verif.TrkSep.C420_ok_partial","Verif.TrkSep.C420_refuted"],"if each space point has a track and all tracks are given; false otherwise"),
("C421","proved",["Verif.TrkSep.C421_defined","Verif.TrkSep.C421_best","Verif.TrkSep.C421_line","Verif.TrkSep.C421_sense"],""),
("C422","proved",["Verif.MCHit.C422_deposits"],"deposits are an abstract linearly ordered type"),
("C423","proved",["Verif.MCHit.C423_wire"],""),
("C424","proved",["Verif.MCHit.C424_peak","Verif.MCHit.C424_refuted_negative"],"the theorem states the code's behaviour for charges that are not positive; the witness shows it"),
("C425","partial",["Verif.MCHit.C425_no_gain_partial","Verif.MCHit.C425_conserved_partial","Verif.MCHit.C425_refuted_gap","Verif.MCHit.C425_refuted_twice"],"false in general (witnesses); exact for consecutive counts, an upper bound always"),
("C426","proved",["Verif.MCHit.C426_produce"],"the final sort by channel is the identity and not modelled"),
("C427","proved",["Verif.SCE.C427_first_label","Verif.SCE.C427_slice"],""),
("C428","proved",["Verif.SCE.C428_shift","Verif.SCE.C428_sce","Verif.SCE.C428_rigid"],""),
("C429","proved",["Verif.SCE.C429_vertex"],""),
("C430","proved",["Verif.SCE.C430_slices"],""),
("C431","proved",["Verif.SCE.C431_objects"],""),
("C432","partial",["Verif.SCE.C432_hits_partial","Verif.SCE.C432_refuted"],"false for slices without time and for space points of several hits (witness)"),
("C433","proved",["Verif.LineClus.C433_endpoints","Verif.LineClus.C433_vertices"],""),
("C434","proved",["Verif.LineClus.C434_clusters"],""),
("C435","partial",["Verif.LineClus.C435_ends_partial","Verif.LineClus.C435_refuted","Verif.LineClus.C435_refuted_dangling"],"false for 2D vertices without clusters (witness)"),
("C436","proved",["Verif.LineClus.C436_vertices","Verif.LineClus.C436_planes"],""),
("C437","proved",["Verif.LineClus.C437_check","Verif.LineClus.C437_disjoint"],""),
("C438","proved",["Verif.PmaNode.C438_set","Verif.PmaNode.C438_wall","Verif.PmaNode.C438_same"],"rational numbers; every place"),
("C439","partial",["Verif.PmaNode.C439_place","Verif.PmaNode.C439_component_partial","Verif.PmaNode.C439_refuted_border"],"proved if both neighbouring places are inside the limits; false at the border (C439_refuted_border)"),
("C440","proved",["Verif.PmaNode.C440_ends"],"any objective function, exact numbers"),
("C441","proved",["Verif.PmaNode.C441_better"],"any objective function, exact numbers"),
("C442","partial",["Verif.PmaNode.C442_refuted","Verif.PmaNode.C441_better"],"false: counterexample C442_refuted; holds if the value returned is positive (C441_better)"),
("C443","proved",["Verif.PmaNode.C443_optimize"],"any objective function, exact numbers"),
("C444","proved",["Verif.DBC3D.C444_hits","Verif.DBC3D.C444_distance"],"any result of the clustering"),
("C445","proved",["Verif.DBC3D.C445_disjoint"],""),
("C446","proved",["Verif.DBC3D.C446_points"],""),
("C447","partial",["Verif.DBC3D.C447_written_partial","Verif.DBC3D.C447_refuted"],"written exactly if two space points differ in x; false for clusters of equal x (C447_refuted)"),
("C448","proved",["Verif.DBC3D.C448_content"],"rational numbers"),
("C449","proved",["Verif.DBC3D.C449_fit"],"rational numbers; without the limits 1E6 and float variables of the search"),
("C450","proved",["Verif.ShwFinder.C450_clusters"],"rational numbers"),
("C451","proved",["Verif.ShwFinder.C451_showers"],"any list of scans"),
("C452","partial",["Verif.ShwFinder.C452_cone_partial","Verif.ShwFinder.C452_refuted"],"proved for vertices at wire 0 and cones to the right; false otherwise (C452_refuted)"),
("C453","partial",["Verif.ShwFinder.C453_refuted"],"false: counterexample C453_refuted"),
("C454","proved",["Verif.Cheat.C454_events"],"the map of particles keeps the last entry of a track number"),
("C455","partial",["Verif.Cheat.C455_never","Verif.Cheat.C455_refuted"],"false: no event ever has hits and the numbers start at -1"),
("C456","proved",["Verif.Cheat.C456_order"],"any wires of channels"),
("C457","proved",["Verif.Cheat.C457_wire","Verif.Cheat.C457_count"],"deposits and nearest wires are parameters"),
("C458","partial",["Verif.Cheat.C458_refuted","Verif.Cheat.C458_refuted_key"],"false: counterexamples"),
("C459","proved",["Verif.Cheat.C459_clusters"],"any scan"),
("C460","proved",["Verif.ProdMisc.C460_vertices"],"any fit"),
("C461","partial",["Verif.ProdMisc.C461_refuted"],"false: counterexample C461_refuted"),
("C462","proved",["Verif.ProdMisc.C462_vertices","Verif.ProdMisc.C462_fails"],"any list of particles"),
("C463","partial",["Verif.ProdMisc.C463_primary_partial","Verif.ProdMisc.C463_refuted"],"proved for primaries; false for tracks with a mother"),
("C464","partial",["Verif.ProdMisc.C464_hits_partial","Verif.ProdMisc.C464_refuted"],"proved if the number of a cluster is its index plus one; false otherwise"),
("C465","proved",["Verif.ProdMisc.C465_spacepoints"],"any way to make space points"),
("C466","partial",["Verif.ProdMisc.C466_hits_partial","Verif.ProdMisc.C466_refuted"],"proved if each track has hits; false otherwise"),
("C467","proved",["Verif.ProdMisc.C467_tracks"],"any fit"),
("C468","proved",["Verif.ProdMisc.C468_written"],"any fit"),
("C469","proved",["Verif.PmaVtx.C469_merge"],"a track is attached to itself"),
("C470","partial",["Verif.PmaVtx.C470_refused_partial","Verif.PmaVtx.C470_refuted"],"tracks unchanged if none is attached; false otherwise (C470_refuted)"),
("C471","partial",["Verif.PmaVtx.C471_dedup_partial","Verif.PmaVtx.C471_refuted"],"no candidate is lost; none contained in another is kept if none is strictly contained; false otherwise"),
("C472","proved",["Verif.PmaVtx.C472_cover","Verif.PmaVtx.C472_ends","Verif.PmaVtx.C472_closest"],"any fit"),
("C473","proved",["Verif.PmaVtx.C473_select"],"any relation of tracks"),
("C474","proved",["Verif.PmaVtx.C474_best"],"rational angles"),
("C475","proved",["Verif.PmaVtx.C475_sort"],"rational lengths"),
("C476","proved",["Verif.VtxAdd.C476_first"],"any track"),
("C477","proved",["Verif.VtxAdd.C477_third"],"any fit"),
("C478","proved",["Verif.VtxAdd.C478_second"],"minimal length above 0"),
("C479","partial",["Verif.VtxAdd.C479_closest_partial","Verif.VtxAdd.C479_refuted"],"if no pair is shorter than four fifths of another; false otherwise"),
("C480","partial",["Verif.VtxAdd.C478_second","Verif.VtxAdd.C480_refuted"],"the tracks are unchanged; the segment is not"),
("C481","proved",["Verif.VtxAdd.C481_first_pass"],"any fit"),
("C482","proved",["Verif.VtxAdd.C482_second_pass"],"any fit"),
("C483","proved",["Verif.VtxAdd.C483_candidates"],"minimal length above 0"),
("C484","proved",["Verif.Cheat2.C484_hits","Verif.Cheat2.C484_charge"],"rational charges"),
("C485","partial",["Verif.Cheat2.C484_hits","Verif.Cheat2.C485_refuted"],"true of the last hit of a wire only"),
("C486","partial",["Verif.Cheat2.C486_numbers_partial","Verif.Cheat2.C486_refuted"],"planes, TPCs and cryostats below 10; false otherwise"),
("C487","proved",["Verif.Cheat2.C487_particles"],"any numbers"),
("C488","proved",["Verif.Cheat2.C488_showers"],"all particles known"),
("C489","partial",["Verif.Cheat2.C489_hits_partial","Verif.Cheat2.C489_refuted"],"if the clusters of the shower are the first ones; false otherwise"),
("C490","proved",["Verif.Cheat2.C490_points"],"any clusters"),
("C491","proved",["Verif.Cheat2.C491_tracks"],"all particles known"),
("C492","proved",["Verif.Cheat2.C492_points"],"all particles known"),
("C493","proved",["Verif.SmallMods.C493_standard"],"any hits"),
("C494","proved",["Verif.SmallMods.C494_icarus"],"any hits"),
("C495","proved",["Verif.SmallMods.C495_apa"],"any disambiguation"),
("C496","partial",["Verif.SmallMods.C496_entries_partial","Verif.SmallMods.C496_refuted"],"if all clusters are in these views; false otherwise"),
("C497","proved",["Verif.SmallMods.C497_score"],"rational places; distances below the largest float"),
("C498","proved",["Verif.SmallMods.C498_origin"],"energies not negative"),
]
extra=os.path.join(os.path.dirname(__file__),"claims_extra.json")
here=os.path.dirname(os.path.abspath(__file__))
out={"claims":[{"property":p,"status":s,"theorems":t,"note":n} for p,s,t,n in C]}
if os.path.exists(extra):
    out["claims"]+=json.load(open(extra))
json.dump(out,open(os.path.join(here,"..","MANIFEST.json"),"w"),indent=1)
# consistency: every theorem exists, every property listed
props=[json.loads(l)["id"] for l in open(os.path.join(here,"..","properties.jsonl"))]
have=[c["property"] for c in out["claims"]]
for p in props:
    if p not in have: print("no claim:",p)
for p in have:
    if p not in props: print("unknown property:",p)
if len(set(have))!=len(have): print("duplicate claims")
src=""
for r,_,fs in os.walk(os.path.join(here,"..","lean","Verif")):
    for f in fs: src+=open(os.path.join(r,f)).read()
for c in out["claims"]:
    for t in c["theorems"]:
        if not re.search(r"theorem "+re.escape(t.split(".")[-1])+r"\b",src): print("missing theorem",t)
