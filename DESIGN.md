# Formal model of LArSoft/larreco — design

## Method
The pure / state-machine core of larreco is modelled function by function in Lean 4
(`lean/Verif/<Subsystem>/Model.lean`), specifications are written separately from the model's
helpers (`Spec.lean` or the head of `Props.lean`), helper lemmas live in `Proofs.lean` and the
property theorems (`C01_…`) in `Props.lean`, each followed by an `example` showing that a
concrete non-trivial case meets its hypotheses.

Conventions
* A C++ function that may throw / call `abort` / `exit` / run into undefined behaviour returns
  `Res α = ok a | throw | ub` (file `Verif/Basic.lean`), so that each of these is a distinct outcome.
* `std::vector::at` out of range is `throw`; `operator[]` out of range, dereferencing `end()` and
  iterator arithmetic out of range are `ub`.
* Loops become folds or structural recursions. When termination is not structural, it is proved with a
  measure, or the loop takes fuel and termination is a theorem ("enough fuel exists").
* `float`/`double` are modelled by exact ordered-field arithmetic (`Rat` or a generic linear ordered
  field) or, where the code only compares, by a generic linear order. Rounding, NaN and infinities
  are outside the model unless a definition says otherwise. Theorems on such code are claims about the
  algorithm in exact arithmetic.
* Pointers are `Nat` identifiers; pointer identity is equality of identifiers.
* Unsigned wrap-around is modelled explicitly where a property depends on it.

## Trusted base
* Lean 4.33.0's kernel; axioms at most `propext`, `Classical.choice`, `Quot.sound` (no own axioms, no
  `native_decide`/`bv_decide`).
* The reading of the C++ source that each definition's comment cites.
* The C++ standard library behaves as specified (`std::sort` yields a sorted permutation, `std::map`/
  `multimap` iterate in key order with stable insertion among equal keys, `max_element` returns the
  first maximum, …).
* External code (ROOT, art, lardata geometry/clock services, recob data products) appears as parameters.

## Per-property plan
See the table at the end; each row says what is modelled and how it is proved.

| id | model | proof |
|---|---|---|
| C01–C06 | `CMergeBookKeeper` as (labels, triangular table, count); every loop of `Merge` modelled cell by cell | refinement to (equivalence closure of accepted merges, set of accepted prohibitions); induction over operation lists |
| C07–C08 | `CMatchBookKeeper`: multimap as stably sorted list, growing bitmap | induction over the sorted list |
| C09–C11 | odometer loop, `next_permutation` on bit vectors, `IterationProcess` of the match manager | odometer = lexicographic enumeration; invariants |
| C12–C15 | `CMManagerBase::Process`, `CMergeManager` passes with algorithms as arbitrary stateless functions | refinement through C01–C05; measure = number of clusters |
| C16 | `CBAlgoArray::Bool` | counterexample + partial theorem |
| C17–C18 | heap of plain/branch elements | heap invariant by induction over operations |
| C19 | parallel vectors | induction |
| C20–C22 | `dbscan/expand/spread` with the seed list as a growing work list; ε-neighbour relation a symmetric parameter instantiated by the exact `dist` | loop invariants; reachability |
| C23 | function cache with object identifiers | induction over requests |
| C24–C27 | block map of counters; angle loop | range lemmas; counterexamples for `set`/`get_max` |
| C28–C29 | kd-tree build/search over generic coordinates | strong induction on list length / tree |
| C30–C33 | back-tracker tables over exact numbers | sums over lists; `ub` for negative ids and off-by-one plane |
| C34 | elimination over a field | row-operation invariants |
| C35–C37 | window loops | loop invariant |
| C38–C40 | recursion on waveform slices | strong induction on length |
| C41–C44 | charges as functions on identifiers over `Rat` | algebra + invariants; modular arithmetic |
| C45–C47 | two-pointer sweep and merge join | sortedness lemmas |
| C48–C50 | greedy clustering + merge sweeps | partition + reachability; counterexamples for wire 0 and empty input |
| C51 | parallel vectors with reset | induction + counterexample |
| C52–C53 | exact arithmetic | ring identities |
| C54 | monotone chain | orientation lemmas |
| C55 | `SetClusters` variants and the output of the merge manager | case analysis, witness for the stale output |
| C56 | `OptionalOutputs` vectors and the book keeper that fills them | induction over the calls; witness for the lost space points |
| C57–C58 | accumulator curve of a point, cells of two points | angle sums over the reals; witness |
| C59–C60 | kd-tree search and `FindEntry` | induction on the tree; witness for the x pruning |
| C61–C63 | efficiency, purity, correctness as sums of charges | sums over lists; witness for the chargeless winner |
| C64 | table of Gaussian areas, construction loop with fuel | invariant; non-termination for every fuel |
| C65–C68 | sliding windows, derivative, core mean, bipolar peaks | window lemmas; witnesses |
| C69–C71 | `QuadExpr` algebra, triplet positions | ring identities; witnesses |
| C72 | append loop over aliased vectors | non-termination for every number of rounds |
| C73–C76 | hull area, nearest edge, extreme points, comparator | shoelace identity; witnesses |
| C77 | fit loop with 16 bit index | modular arithmetic |
| C78–C82 | `Polygon2D` | exact arithmetic, parity of crossings, witnesses |
| C83–C86 | beach line as a binary tree with parent links | in-order list as abstraction |
| C87–C89 | whole Voronoi sweep with events as an arbitrary oracle | invariant on beach line × half edges |
| C90–C96 | breakpoints, circles, box, infinite edges, hull test, areas, boost translation | algebra over ℝ; list invariants; witnesses |
| C97–C101 | Prim's loop, edge map, best path, longest branch | invariant; exchange argument; induction on trees |
| C102 | `DBScanAlg` (Cluster3D tool), queue version | reachability |
| C103–C104 | `DBScanAlg` (2D) set version; R*-tree query | reachability; induction on the tree; witnesses |
| C105–C109 | `ClusterParamsBuilder`, `Cluster3D_module` | folds over clusters and hits; hit and index invariants |
| C110–C113 | nodes/segments as a heap of next/prev links; `Forest` is the shape invariant | induction down/up the forest (rank), `EqvGen` of sharing a node |
| C114–C117 | `Sound` = forest + consistency of the segment lists; merge, flip, insert, remove, attach | every operation preserves `Sound` and has an exact effect on node lists, hits and connected components |
| C118–C123 | `TrajCluster` slice: trajectories, hit table (`InTraj`), vertices, 3D vertices | `HitsOK`/`VtxOK` invariants on both tables; exact effect of store, kill, restore, split, merge, vertex kill; witnesses |
| C124–C128 | `StoreVertex`, `GetVtxTjIDs`, `ChkVtxAssociations`, `InTrajOK`, hit lists, `ReverseTraj` | exact characterisation of each answer; witnesses |
| C129–C132 | `RegionAboveThresholdFinder`, `RFFHitFitter`, `RFFHitFinderAlg` | induction along signal and groups; index invariant of the erase loop; witnesses |
| C133–C136 | `CandHitDerivative`, `CandHitMorphological` | induction on the recursion over ranges; invariant on the candidate list; region list; witnesses |
| C137–C142 | `BlurredClusteringAlg`, `MergeClusterAlg::MergeClusters` | invariants on used bins, growth by induction on the bins left, refinement of the loops to sums and to connected groups; witnesses |
| C143 | TimeSort: sorted hits, staircase walk, two crossings per triple | invariant of the fold over tested triples; membership of the walk characterised |
| C144 | same | exact condition (`triples_found_partial`), sufficient condition for isolated hits; two refutations |
| C145 | same, sort as any sorted permutation | uniqueness of the sorted arrangement; refuted for equal times; undefined exactly when a plane is empty |
| C146 | MatchTQ: groups over an arbitrary pair test | invariant over the pair loop |
| C147 | same | each grouped cluster passed with some cluster; of a passing pair one is matched when sizes per view are equal; both halves of the full claim refuted |
| C148 | StitchAlg FindHeadsAndTails over rationals | a link always leads to a later track with some matching pair of ends; which ends it names is refuted |
| C149 | WalkStitch on the link tables | fuel above the number of tracks; links lead forward; coverage invariant |
| C150 | CommonComponentStitch and the module's loop | each call takes one composite away; refuted for loss of tracks |
| C151 | FirstStitch, points of a stitched track | from the in-step invariant |
| C152 | compatible, separation over rationals | permutation invariance of the slots by plane; explicit form for two and three hits |
| C153 | the loops of makeSpacePoints over planes, wire windows and predicted wires | windows shown to contain every crossing, compatible hit; uniqueness from plane order |
| C154 | sptmap, fSptHitMap and numbers of points | invariant on the state; exact for one TPC; refuted for several |
| C155 | filter | best of each key; exact for one TPC; refuted for several |
| C156 | merge | union of each key; exact for one TPC with three views; two views always throw |
| C157 | timeFit, wireFit | completing the square |
| C158 | fillSpacePoints along a track | cut into pieces, shown unique |
| C159 | CMergeHelper::Process over CMergeManager and the book keeper of C01-C10 | chain invariant: combined book reachable, groups = hits of the last manager |
| C160 | ClusterMergeHelper state, getters, AppendResult | from C159's manager theorem; permutation of hit pointers |
| C161 | CBAlgoArray::Bool with its early exits | induction; refuted for mixed arrays |
| C162 | CPAlgoArray::Priority | induction per mode; product refuted |
| C163 | TrackCalorimetryAlg: projection minimum, multimap by path fraction, object per plane | fold invariants; sort is a permutation |
| C164 | IsInvertedTrack, residual range | multimap order gives monotone ranges; sums of the end rows |
| C165 | doLikelihoodScan on one grid | grid by fuel recursion, termination Archimedean; argmin invariant |
| C166 | the two-stage scan | coarse optimum lies on the fine grid; refuted without uncertainty |
| C167 | breakTrajInSegments, cumulative lengths | invariant on the loop state |
| C168 | GetE in its three modes | induction on steps; mode 1 refuted |
| C169 | Track3D: wire maps, choice of planes, time range, matching loop | loop invariant over the first plane's wires; defects refuted by witness |
| C170 | MakeSPT per hit and loop | argmin folds; perpendicular foot by algebra; other side and equal projections refuted |
| C171 | the grouping loops of the module | invariant: groups disjoint, equal to the equivalence closure of processed pairs |
| C172 | output loop with all associations | invariant on the data products; permutation of points |
| C173 | TrajOnly output | true for sorted trajectories; refuted otherwise |
| C174 | duplicate removal | induction |
| C175 | all stages as folds over a status; `MakeDisambigHit` the only mutator | reachability relation closed under the stages; invariant (decided = recorded, keys distinct, wires of the channel) |
| C176 | same | prefix order preserved by every step |
| C177 | the two while loops with fuel | the number of undecided hits falls by the count returned; independence of the fuel; endless loop for invalid wires refuted |
| C178 | Crawl, MakeCloseHits | a pass with count zero changes nothing, hence every single extension test failed |
| C179 | HitsOverlapInTime | case analysis; symmetry and Z offset refuted |
| C180 | TrivialDisambig | filter with exactly one element |
| C181 | CompareViews | sums of counts; the 'ambiguous hits' half refuted |
| C182 | angle range and reflection of FindChanTimeEndPts | folds; negative cones, backward cones and the wrap refuted |
| C183 | UseEndPts | case analysis; V-only refuted |
| C184 | MakeCloseHits channel and window arithmetic | omega; covering windows refuted |
| C185 | MakeCloseHits exception | from the invariant of C175 |
| C186 | scan loop of the constructor with uninitialised members | loop invariant over the channels |
| C187 | division arithmetic | omega/Nat.div lemmas; second cryostat refuted, with the consequence for the crawl |
| C188 | last-match fold | induction; unit error refuted |
| C189 | unsigned arithmetic mod 2^32 | omega; low wires refuted |
| C190 | flatMap of pairs, argmin fold | induction; no crossing in the TPC refuted |
| C191 | Track/TtaModel: `track`, with the bin loop | `C191_number_of_points` by an invariant on the bin origin |
| C192 | `C192_always_succeeds` for all inputs | the documented failure refuted by `C192_single_plane_end_refuted` |
| C193 | `C193_reversed_hits` for all inputs | `C193_directions_refuted` |
| C194 | `C194_points_ordered_partial` if the first bin has more than four hits | `C194_range_refuted` for exactly four |
| C195 | `C195_refused`, `C195_exact_line` for any least-squares solver | `C195_four_hits_refuted`, `C195_chi_weight_refuted` |
| C196 | nested loops as folds over positions, swaps | argmin fold invariant, permutation lemmas |
| C197 | vector algebra over the rationals | polynomial identities |
| C198 | 2x2 symmetric matrices | closed form (det C2 C1 + det C1 C2)/det S, completion of squares |
| C199 | the marker comparison | refuted for every marker value |
| C200 | fold over the remaining tracks | induction |
| C201 | map over the tracks | case analysis, erase = filter for distinct addresses |
| C202 | `chi2Of`, `ip2`, `ipErr2` of the positions and covariances on a plane | the gap between chi-square and squared significance is a square over a positive number |
| C203 | `Tag.tag`: the seven passes over the collection | each pass is a map over positions with a criterion that does not read tags; bits of the word by `has_or` |
| C204 | `Tag.decode` of the tag word with the flag values of the code | the word is the union of the flags; refuted as exact: the flags overlap |
| C205 | the count of `Tag.tag` | exchange of the sums over passes and tracks; refuted as exact |
| C206 | reversed tracks | per criterion; refuted with the dE/dx veto |
| C207 | `dimMin`, `dimMax` | induction over the TPCs |
| C208 | `sigma`, `notStopper` | Cauchy-Schwarz over the list of values |
| C209 | `nonBeam` | refuted for a T0 of zero |
| C210 | `bin`, `win` of Track/TtaModel | `C210_first_bin_partial`, `C210_later_bins_partial` for sorted hits; `C210_overlap_refuted` |
| C211 | PMAlg/TreeRunModel: `run`, `shift` on the graphs of TreeModel | `C211_shift`: log of the walk from the root, each event once and in a right order |
| C212 | `objStep`, `updStep` | `C212_objective`, `C212_update` from the same log |
| C213 | `callStep` | `C213_calls` |
| C214 | `t0FromDx`, `shift` | `C214_t0_linear`, `C214_shifts_add` |
| C215 | PMAlg/StitchModel: `pairDelta` | `C215_symmetric`, `C215_scale`, `C215_zero_iff`, `C215_no_score` |
| C216 | `optimal` | `C216_best_shift`, `C216_within`: first minimum of a fold |
| C217 | `select` | `C217_best_partner`; `C217_first_at_surface_partial`; refuted for the second track and for the directions |
| C218 | `plan`, `joined`, `shift` | `C218_ends_meet`; `C218_same_tree_refuted` |
| C219 | `rounds` | `C219_rounds_partial`: number of tracks minus index decreases |
| C220 | `cathode`, `offsets`, `tpcOffset` | `C220_cathode`, `C220_lookup` |
| C221 | Shower/EmGroupModel: `associate` | `C221_associations`: invariant of the two folds |
| C222 | `findShowers` | `C222_showers_partial`, `C222_no_repeat`, `C222_disjoint_iff`; `C222_one_shower_refuted` |
| C223 | `checkOne`, `checkPlanes` | `C223_mean_share`, `C223_bad_plane`; `C223_every_shower_refuted` |
| C224 | `produce` | `C224_tracks_found`, `C224_output_partial`; numbers, selection and space points refuted |
| C225 | Shower/EmHitModel: `orderHits` | `C225_order_partial`; `C225_keeps_all_refuted` |
| C226 | `checkIsolated` | `C226_no_loss`, `C226_no_throw`, `C226_one_hit_partial`; `C226_two_hits_refuted` |
| C227 | `permutations`, `orient`, `wireOrder`, `rmsRead` | `C227_result`, `C227_finds_partial`, `C227_widths`; two refutations |
| C228 | `worstPlane`, `trackPlanes` | `C228_worst_plane`, `C228_track_planes` |
| C229 | `showerStart` | `C229_start_partial`; two refutations |
| C230 | Shower/EmShowerModel: `spacePoints` | `C230_points`, `C230_once_partial`, `C230_complete_two`: invariants of the three loops; `C230_once_refuted` |
| C231 | `dEdx` | `C231_dqdx_partial`, `C231_long_pitch`, `C231_no_track`; two refutations |
| C232 | `constructTrack` | `C232_start`, `C232_directions_partial`; two refutations |
| C233 | `makeShower` | `C233_shower_partial`, `C233_throws_iff`; `C233_refuted` |
| C234 | `topTwo`, `startDir`, `bestPitch` | `C234_two_planes`, `C234_start`, `C234_symmetric`, `C234_best_plane` |
| C235 | `orderVtx`, `maxTpc`, `initialHits` | `C235_order`, `C235_tpc`, `C235_initial` |
| C236 | `weightedFit`, `gradient` | `C236_fit`, `C236_no_fit`, `C236_gradient`: normal equations and a nonnegative quadratic form |
| C237 | `isClean` | `C237_clean` |
| C238 | `centre` | `C238_centre` |
| C239 | `segment` | `C239_segment_partial`, `C239_monotone`; `C239_last_refuted` |
| C240 | `pieces`, `cut`, `longPulse`, `pieceParams` | `C240_pieces`, `C240_covers_partial`, `C240_capped` (exact), `C240_area`; `C240_refuted` |
| C241 | `peakStep`, `pulseHits` | `C241_windows_partial`, `C241_extent`: invariant of the loop (borders of the previous peak); `C241_refuted` |
| C242 | `sumAdc` | `C242_sums_partial`, `C242_long`; `C242_refuted` |
| C243 | `cutSorted`, `isGood` | `C243_filter_partial`, `C243_good`; `C243_refuted` |
| C244 | `Interleave` | `C244_schedule` by induction on the schedule; `C244_refuted` |
| C245 | `declared`, `putInto`, `fillOut` | `C245_products_partial`, `C245_fillOut`; `C245_refuted` |
| C246 | `areaCharge`, `chargeErr` | `C246_long_partial`; `C246_refuted` |
| C247 | `startPars`, `fitted` | `C247_limits_partial`, `C247_identity`; `C247_refuted` |
| C248 | `shifted` | `C248_nearest_partial`; `C248_refuted` |
| C249 | `numPeaks`, `multiplicity` | `C249_multiplicity_partial`, `C249_atMost`; `C249_refuted` |
| C250 | `organize` | `C250_partition`, `C250_individual` by induction on the hits |
| C251 | `organize true` | `C251_snippets`; `C251_refuted` |
| C252 | `charge` | `C252_conserved`; `C252_refuted` |
| C253 | `resRange`, `isDown` | `C253_residual`, `C253_reverse_partial`, `C253_monotone`; `C253_refuted` |
| C254 | `mkCalo`, `produceAll` | `C254_objects`, `C254_rows` |
| C255 | `lookup` | `C255_lookup_partial`; `C255_refuted` |
| C256 | `goingDS` | `C256_direction_partial`, `C256_short`; `C256_refuted` |
| C257 | `deadStep` | `C257_exact`, `C257_closest_partial`, `C257_count`; `C257_refuted` |
| C258 | `nearest5` | `C258_nearest`; `C258_refuted` |
| C259 | `showerPlane` | `C259_rows_partial`; `C259_refuted` |
| C260 | `modBox` (reals) | `C260_inverse`, `C260_strictMono`, `C260_nonneg_partial`, `C260_zero`; `C260_refuted` |
| C261 | `birks` (reals) | `C261_inverse`, `C261_below_partial`, `C261_above`; `C261_refuted` |
| C262 | `lifetime` (reals) | `C262_lifetime`, `C262_recovers` |
| C263 | tmpStore, mark, newCl | C263_stored_iff, C263_stored |
| C264 | tmpStore, mark | C264_failed_partial, C264_refuted |
| C265 | chargeReads | C265_reads_partial, C265_refuted |
| C266 | obsolete, restore | C266_kill_restore, C266_refuted |
| C267 | step, moduleCheck | C267_history |
| C268 | step | C268_marks_partial, C268_refuted |
| C269 | split, splitUS | C269_split_partial, C269_lost, C269_refuted |
| C270 | doMerge, mergedHits, mergeRange | C270_merged, C270_limit |
| C271 | mergeOverlap | C271_overlap_begin_partial, C271_refuted |
| C272 | removeObsolete, removeReads | C272_remove_partial, C272_refuted |
| C273 | shorten | C273_shorten_partial, C273_refuted |
| C274 | duplicates | C274_duplicates |
| C275 | getHitRange | C275_ranges, C275_first_last |
| C276 | deadWires | C276_dead |
| C277 | killMe, ghost, nClose | C277_killed_partial, C277_first_stays, C277_refuted |
| C278 | mergeHits, fixIndices | C278_merged_partial, C278_refuted |
| C279 | inputFlags, inputFlag | C279_masks |
| C280 | forward, planeLoop, step, rowLoop | C280_placed |
| C281 | planeLoop, step, scan, pickWire | C281_not_used_partial, C281_refuted |
| C282 | rowLoop, rowStep | C282_row_partial, C282_refuted |
| C283 | planes, planeLoop | C283_plane_order |
| C284 | fit, doFit, points | C284_enough |
| C285 | cleanLoop, firstZig | C285_cleaned, C285_ends |
| C286 | sortOutput, sortLoop | C286_nothing_lost_partial, C286_refuted |
| C287 | points, momentumOk | C287_points, C287_momentum_partial, C287_refuted |
| C288 | fitTraj | C288_both, C288_single, C288_refuted |
| C289 | fit, doFit | C289_masks_grow_partial, C289_first_partial, C289_refuted |
| C290 | fit | C290_all_hits_partial (false with sortOutputHitsMinLength: C286_refuted) |
| C291 | setM, setP, setN, getM, getP, getN | C291_matrix, C291_plane, C291_number |
| C292 | getM, getP, getN | C292_read_partial, C292_refuted |
| C293 | bookM, bookP, bookN | C293_matrices, C293_planes, C293_numbers_partial, C293_refuted |
| C294 | write, read | C294_roundtrip_partial, C294_refuted |
| C295 | reset, setNhits | C295_reset_partial, C295_refuted |
| C296 | addFailed, hitFailed, numFailed | C296_failed |
| C297 | copy, copyStore | C297_copy_partial, C297_refuted |
| C298 | scan, scanStep | C298_peaks |
| C299 | scan, ends | C299_windows |
| C300 | scan, ends | C300_disjoint_partial, C300_refuted |
| C301 | groups, groupLen | C301_groups |
| C302 | window, trimUp, trimDown, minPeak | C302_window_partial, C302_refuted |
| C303 | wireHits, groupHits | C303_hits_partial, C303_refuted |
| C304 | tick, totalCharge, hits | C304_hit_partial, C304_wire, C304_refuted |
| C305 | reads | C305_reads_partial, C305_refuted |
| C306 | tick, beginTick | C306_centre_partial, C306_refuted |
| C307 | runs, colLoop, runLoop | C307_runs |
| C308 | charge, moreTail, tailSum | C308_peak_charge |
| C309 | rms2 | C309_width_partial, C309_refuted |
| C310 | summed | C310_summed_partial, C310_refuted |
| C311 | dips, indLoop, dipTimes, stepBack, dipLoop | C311_dips |
| C312 | dipLoop | C312_charge_partial, C312_refuted |
| C313 | dipTimes, toBaseline | C313_time_partial, C313_refuted |
| C314 | CCHit/Model.lean: rats, ratLoop, mintime, maxtime | C314_regions (exact), C314_end_refuted: a run that reaches the end is no region |
| C315 | CCHit/Model.lean: region | C315_hit_partial (fewer than 1000 ticks or too many bumps), C315_thousand_refuted |
| C316 | CCHit/Model.lean: region, store | C316_group, any state and setting |
| C317 | CCHit/Model.lean: fitNG, sortPar, fitOk | C317_sane, C317_stale_refuted: with a limit above 9999 the Gaussians of the region before are stored |
| C318 | CCHit/Model.lean: store, crude | C318_summed |
| C319 | CCHit/Model.lean: crude | C319_crude |
| C320 | CCHit/Model.lean: region, fitNG, stat | C320_stats_partial (no region of 1000 ticks), C320_refuted |
| C321 | CCHit/Model.lean: run, wires, wire, region | C321_run |
| C322 | LineMerge/Model.lean: produce, merge | C322_groups_partial, C322_hits_partial (clusters of a view on one plane), C322_refuted |
| C323 | LineMerge/Model.lean: produce, merge | C323_once |
| C324 | LineMerge/Model.lean: add | C322_groups_partial (`MadeOf`: lowest start, lowest end), C324_end_refuted |
| C325 | LineMerge/Model.lean: add | C322_groups_partial (`MadeOf.blocks`), C325_order_refuted |
| C326 | LineMerge/Model.lean: match2, endpoints, slopeOk | C326_symmetric, C326_criterion |
| C327 | LineMerge/Model.lean: produce, merge | C327_unchanged |
| C328 | LineMerge/Model.lean: produce, merge | C328_none_partial, C328_refuted |
| C329 | SmallClus/Model.lean: produce, split, createHigh | C329_once, C329_nonempty |
| C330 | SmallClus/Model.lean: split | C330_ends (hits within the radius of themselves), C330_endless, C330_refuted |
| C331 | SmallClus/Model.lean: createHigh, planeClusters | C331_small |
| C332 | SmallClus/Model.lean: split | C332_shape, C332_apart; C332_refuted, C332_tpc_refuted |
| C333 | SmallClus/Model.lean: planeClusters | C333_ids_partial (under 100 small clusters per plane), C333_refuted |
| C334 | SmallClus/Model.lean: produce | C334_products, C334_refuted |
| C335 | SmallClus/Model.lean: showerEnergy | C335_energy, C335_order, C335_additive, C335_mono |
| C336 | CMAlgos/Model.lean: all merging algorithms | C336_symmetric_partial, C336_com_partial, C336_separate_refuted, C336_com_refuted |
| C337 | CMAlgos/Model.lean: angleCompat, angles | C337_criterion, C337_refuted (angles are not taken modulo a turn) |
| C338 | CMAlgos/Model.lean: angleCompat, angleIncompat, angleAlign | C338_complement, C338_align |
| C339 | CMAlgos/Model.lean: tinyWithBig | C339_criterion_partial, C339_same, C339_default, C339_refuted |
| C340 | CMAlgos/Model.lean: shortest2 | C340_least_partial, C340_upper, C340_refuted |
| C341 | CMAlgos/Model.lean: com | C341_com, C341_refuted (negative charges) |
| C342 | CMAlgos/Model.lean: qRatio | C342_value, C342_order |
| C343 | CMAlgos/Model.lean: zOverlap | C343_range, C343_overlap_partial, C343_refuted |
| C344 | CMAlgos/Model.lean: timeOverlap | C344_range, C344_refuted, C344_zero_refuted |
| C345 | CMAlgos/Model.lean: showerCompat | C345_criterion, C345_order |
| C346 | CMAlgos/Model.lean: prioHits, prioQ, prioArea, prioTracks | C346_priority, C346_tracks, C346_refuted (negative cut) |
| C347 | DPHit/Model.lean: candidates, find | C347_candidates_partial, C347_refuted, C347_max_refuted |
| C348 | DPHit/Model.lean: candidates | C348_positive_partial, C348_refuted |
| C349 | DPHit/Model.lean: candidates | C349_complete_partial, C349_refuted |
| C350 | DPHit/Model.lean: groups, inner, join | C350_groups |
| C351 | DPHit/Model.lean: near, groups | C350_groups |
| C352 | DPHit/Model.lean: fluct | C352_fluctuations |
| C353 | DPHit/Model.lean: addPeak, splitPeak | C353_more |
| C354 | DPHit/Model.lean: refit, tryAll, again | C354_refit |
| C355 | DPHit/Model.lean: longPlan, longHits | C355_long_partial, C355_refuted, C355_history_refuted |
| C356 | DPHit/Model.lean: noise, intSum | C356_sum, C356_noise_partial, C356_refuted |
| C357 | DPHit/Model.lean: terms, hitParams | C357_terms_partial, C357_refuted, C357_distinct |
| C358 | DPHit/Model.lean: timeLimits | C358_limits |
| C359 | DPHit/Model.lean: average | C359_average_partial, C359_constant_partial, C359_refuted |
| C360 | DPHit/Model.lean: groupHits, roiHits; Thm4: produceROI | C360_region, C360_hits, C360_numbers |
| C361 | DataProv scaleOne, scaleAll, SCfg.zero | C361_all, C361_range, C361_zero_partial, C361_zero_refuted |
| C362 | DataProv downscale .max | C362_max |
| C363 | DataProv downscale .mean | C363_mean |
| C364 | DataProv downscale .maxMean | C364_maxMean_partial, C364_refuted |
| C365 | DataProv setWires, emptyView | C365_image_partial, C365_refuted |
| C366 | DataProv getPixel | C366_pixel |
| C367 | DataProv poolMax | C367_pool |
| C368 | DataProv blur | C368_blur_partial, C368_constant, C368_refuted |
| C369 | DataProv patchDown, getPatch | C369_patch_partial, C369_refuted, C369_odd_refuted |
| C370 | DataProv patchOrig | C370_patch_partial, C370_refuted, C370_scaled_refuted |
| C371 | PmaUtil segProj, toSegment | C371_projection: completing the square along the line |
| C372 | PmaUtil solve, system | C372_nearest, C372_value_partial, C372_none, C372_refuted: the matrix is a sum of positive semidefinite forms; it is singular exactly if all lines are parallel |
| C373 | PmaUtil radius2 | C373_radius |
| C374 | PmaUtil hitsCount, summed | C374_views |
| C375 | PmaUtil ptrLess, segLess, centerLess | C375_orders_partial, C375_refuted, C375_segment_refuted |
| C376 | PmaUtil segDist2 | C376_long, C376_bounds, C376_sym, C376_refuted |
| C377 | PmaUtil segPoint, setProj | C377_point, C377_set_partial, C377_refuted |
| C378 | PmaUtil sigma2, around | C378_weights_partial, C378_refuted, C378_around_partial, C378_around_refuted |
| C379 | PmaUtil selectRnd, plan, select | C379_count_partial, C379_changed, C379_refuted |
| C380 | ClusMatch fill, addHit | C380_info_partial, C380_refuted: maxima and minima of folds |
| C381 | ClusMatch roughT | C381_sym, C381_overlap_partial, C381_refuted |
| C382 | ClusMatch sumQ | C382_charge_partial, C382_refuted |
| C383 | ClusMatch roughZ | C383_z_partial, C383_refuted |
| C384 | ClusMatch match2, all2, pair2 | C384_two_partial, C384_id_refuted |
| C385 | ClusMatch match3, all3, pair3 | C385_three_partial (numbers of clusters are cut to 16 bits: C384_id_refuted) |
| C386 | ClusMatch spMatch, pair2, pair3 | C386_debug_partial, C386_refuted |
| C387 | ClusMatch spacePoint | C387_third_partial, C387_refuted |
| C388 | ClusMatch append, match2, match3 over all sequences of calls | C388_history_partial, C388_refuted |
| C389 | ClusMatch spMatch, range | C389_space_partial, C389_refuted |
| C390 | PrimVtx near | C390_sym_partial, C390_sym_refuted |
| C391 | PrimVtx near, gammavalue, alphavalue | C391_close: the difference of the closest points is orthogonal to both lines |
| C392 | PrimVtx collect | C392_alone |
| C393 | PrimVtx collect | C393_all: invariant of the loop over pairs, on lists of tracks with their points |
| C394 | PrimVtx collect | C394_close |
| C395 | PrimVtx collect | C395_one_partial, C395_refuted |
| C396 | PrimVtx produce, mean | C396_position |
| C397 | GFPlane sane, unit, quarter | C397_axes, C397_throws, C397_refuted |
| C398 | GFPlane setNormal | C398_normal |
| C399 | GFPlane toPlane, toLab | C399_inverse |
| C400 | GFPlane lineToPlane | C400_line_partial, C400_refuted |
| C401 | GFPlane same | C401_equal_partial, C401_refuted |
| C402 | GFPlane apply over all sequences of calls | C402_history_partial, C402_refuted |
| C403 | GFPlane dist, distance | C403_distance: Cauchy-Schwarz with the normal |
| C404 | Seg2D outer, inner, runOne, seedLoop, build, mergeDense | C404_hits_partial, C404_refuted |
| C405 | Seg2D outer with fuel | C405_ends_partial (each round releases a hit), C405_run_partial, C405_refuted (no fuel suffices) |
| C406 | Seg2D tagDense | C406_dense: marks stay sound, each pass completes the marks of the others |
| C407 | Seg2D mergeDense | C407_merge |
| C408 | Seg2D mergeDense with fuel | C408_ends_partial (parts that are not showers become fewer), C408_refuted |
| C409 | Seg2D mergeParts, choose | C409_merge_partial, C409_refuted, C409_refuted_tag, C409_refuted_choice |
| C410 | Seg2D splitHits | C410_split, C410_all |
| C411 | Seg2D splitNaive | C411_naive |
| C412 | Seg2D build, grow, arrange | C412_segments (invariant over all loops), C412_first |
| C413 | Seg2D splitLoop, huge, bySeg, produce | C413_output, C413_ends, C413_huge |
| C414 | TrkSep select, Marks | C414_final: invariant over all passes |
| C415 | TrkSep typeOne, average with infinities | C415_first_partial, C415_cylinder, C415_refuted, C415_refuted_nan |
| C416 | TrkSep typeTwo | C416_second_partial (Reach: closure), C416_refuted |
| C417 | TrkSep cones, decideOne | C417_cones, C417_decision |
| C418 | TrkSep showersTwo, rest | C418_noop: the pass has no effect on the result |
| C419 | TrkSep untracked, select | C419_hits |
| C420 | TrkSep select with failures | C420_ok_partial, C420_refuted |
| C421 | TrkSep gradient | C421_defined, C421_best, C421_line, C421_sense |
| C422 | `MCHit/Model`: `addItem`, `fill`, `hitOf` | `C422_deposits` |
| C423 | `fill`, `push` | `C423_wire` with the specification `FirstRun` |
| C424 | `peakStep`, `hitOf` | `C424_peak`, `C424_refuted_negative` |
| C425 | `fill` | `C425_no_gain_partial`, `C425_conserved_partial`, `C425_refuted_gap`, `C425_refuted_twice` |
| C426 | `addSim`, `produce` | `C426_produce` |
| C427 | `SCE/Model`: `findGo`, `setKey`, `sliceT0s`, `best` | `C427_first_label`, `C427_slice` with the specifications `Cand`, `LastWith` |
| C428 | `t0Shift`, `correct` | `C428_shift`, `C428_sce`, `C428_rigid` |
| C429 | `closest`, `newVtx` | `C429_vertex` |
| C430 | `doPfp`, `doSlice`, `produce` | `C430_slices`: invariant over slices and particles |
| C431 | `doVtx`, `doSP`, `doClu`, `doMeta` | `C431_objects` with the specification `Link` |
| C432 | `produce` | `C432_hits_partial`, `C432_refuted` |
| C433 | `LineClus/Model`: `endStep`, `endPoints`, `vertices` | `C433_endpoints`, `C433_vertices` |
| C434 | `sums`, `doClus`, `write` | `C434_clusters` |
| C435 | `doEnd` | `C435_ends_partial`, `C435_refuted`, `C435_refuted_dangling` |
| C436 | `vtxGo`, `doEnd` | `C436_vertices` |
| C437 | `consistent` | `C437_check`, `C437_disjoint` |
| C438 | `PmaNode/Model`: `setPoint`, `distToWall`, `sameTPC` | `C438_set`, `C438_wall`, `C438_same` |
| C439 | `makeGradient` | `C439_place`, `C439_component_partial`, `C439_refuted_border` |
| C440 | `first`, `second`, `third`, `step` | `C440_ends` (the rounds of the model do not change the result once large enough) |
| C441 | `step` | `C441_better`, by an invariant of the three points |
| C442 | `step` | `C442_refuted` (counterexample) |
| C443 | `optimize` | `C443_optimize` |
| C444 | `DBC3D/Model`: `step1`, `closest`, `step2`, `slcHits` | `C444_hits` |
| C445 | `slcHits` | `C445_disjoint` |
| C446 | `slcSps` | `C446_points` |
| C447 | `delta`, `row`, `produce` | `C447_written_partial`, `C447_refuted` |
| C448 | `centre`, `row` | `C448_content` |
| C449 | `fitSums`, `slopes`, `ends` | `C449_fit` |
| C450 | `ShwFinder/Model`: `inCone`, `proto` | `C450_clusters` |
| C451 | `select`, `addShower`, `produce` | `C451_showers` |
| C452 | `inCone` | `C452_cone_partial`, `C452_refuted` |
| C453 | `produce` | `C453_refuted` |
| C454 | `Cheat/Model`: `vertexMap`, `events` | `C454_events` |
| C455 | `events` | `C455_never`, `C455_refuted` |
| C456 | `disambig` | `C456_order` |
| C457 | `lookup`, `widsOf`, `store` | `C457_wire`, `C457_count` |
| C458 | `store`, `lookup` | `C458_refuted`, `C458_refuted_key` |
| C459 | `planeClus`, `dbcluster` | `C459_clusters` |
| C460 | `ProdMisc/Model`: `tracksOf`, `computeMeta`, `fitVertices` | `C460_vertices` |
| C461 | `fitVertices` | `C461_refuted` |
| C462 | `cheatVertices` | `C462_vertices`, `C462_fails` |
| C463 | `cheatVertices` | `C463_primary_partial`, `C463_refuted` |
| C464 | `pfpHits` | `C464_hits_partial`, `C464_refuted` |
| C465 | `tcTrack` | `C465_spacepoints` |
| C466 | `groups`, `prodTracks` | `C466_hits_partial`, `C466_refuted` |
| C467 | `prodTracks` | `C467_tracks` |
| C468 | `prodTracks` | `C468_written` |
| C469 | `PmaVtx/Model`: `mergeGo`, `mergeWith` | `C469_merge` |
| C470 | `mergeWith` | `C470_refused_partial`, `C470_refuted` |
| C471 | `inner`, `dedup` | `C471_dedup_partial`, `C471_refuted` |
| C472 | `bestPair`, `mergeLoop` | `C472_cover`, `C472_ends` |
| C473 | `eligible`, `select` | `C473_select` |
| C474 | `bestCand`, `select` | `C474_best` |
| C475 | `sortTracks`, `collect` | `C475_sort` |
| C476 | `VtxAdd/Model`: `add1`, `add` | `C476_first` |
| C477 | `step3`, `add3` | `C477_third` |
| C478 | `step2`, `segPairs`, `best2`, `add2` | `C478_second` |
| C479 | `best2` | `C479_closest_partial`, `C479_refuted` |
| C480 | `add2` | `C480_refuted` |
| C481 | `firstIn`, `firstPass` | `C481_first_pass` |
| C482 | `secondIn`, `secondPass` | `C482_second_pass` |
| C483 | `add`, `firstPass`, `secondPass` | `C483_candidates` |
| C484 | `Cheat2/Model`: `accum`, `emit`, `scan`, `wireHits` | `C484_hits`, `C484_charge` |
| C485 | `scan` | `C485_refuted` |
| C486 | `clusterID`, `eveID` | `C486_numbers_partial`, `C486_refuted` |
| C487 | `addKey`, `eveMap` | `C487_particles` |
| C488 | `shwStep`, `showers` | `C488_showers` |
| C489 | `shwStep` | `C489_hits_partial`, `C489_refuted` |
| C490 | `addSp`, `addCl` | `C490_points` |
| C491 | `colHits`, `trkStep`, `tracks` | `C491_tracks` |
| C492 | `trkStep` | `C492_points` |
| C493 | `SmallMods/Model`: `readStep`, `readStandard` | `C493_standard` |
| C494 | `readIcarus` | `C494_icarus` |
| C495 | `apaHits` | `C495_apa` |
| C496 | `viewNo`, `clsStep`, `analyze` | `C496_entries_partial`, `C496_refuted` |
| C497 | `nearest`, `cosmicScore` | `C497_score` |
| C498 | `origin` | `C498_origin` |

## What is and is not modelled
Modelled, function by function (comments cite lines): `CMergeBookKeeper`, `CMatchBookKeeper`, `CMManagerBase`,
`CMergeManager`, `CMatchManager`, `CBAlgoArray`; `SortedObjects`, `PmaTrkCandidate` (collection operations),
`PmaTrack3D` (tree queries, `ExtendWith`, flips, node edits, attachments); `TrackCreationBookKeeper`;
`DBScan3DAlg`, `DBScanAlg` (2D and Cluster3D), `HoughBaseAlg` (accumulator and transform), `kdTree`, `SimpleClustering`
(3D part), `TrajCluster` bookkeeping (`tca::` trajectories and vertices), `MinSpanTreeAlg`, `MSTPathFinder` (path part), `ClusterParamsBuilder` (hit ownership), `Cluster3D_module`
(output), `Cluster3D` containers; `MCBTAlg`, `MCMatchAlg`; `GaussianEliminationAlg`, `WaveformTools`,
`SpacePointAlg_TimeSort` (geometry as parameters), `SpacePointAlg` (without Monte Carlo truth, log output and `correctedTime`), `ClusterMatchTQ` (pair test arbitrary), `StitchAlg` with the driving loop of `TrackStitcher_module.cc`;
`BlurredClusteringAlg` (without geometry, direction fit, debug output), `MergeClusterAlg` (pair decision arbitrary); `CandHitStandard`, `CandHitDerivative`, `CandHitMorphological`, `RFFHitFitter` (square root arbitrary), Gaussian function cache of the fitter; `Solver`, `QuadExpr`, `TripletFinder`; `PxHitConverter`-free
parts of `TrackCandidate`; `ConvexHull`, `Polygon2D`, `LinFitAlg`-type fits; the Voronoi subsystem (`BeachLine`, `Voronoi`,
`DCEL`).

Not modelled, or idealised:
* rounding, NaN and infinities (exact arithmetic instead), except where a definition says so; ROOT minimisers, fits and
  formulas; the R*-tree library (contract only); `std::sort` beyond its contract; log messages.
* `CountersMap` behaves as a map from keys to counters with the stated block ranges; `TPCTick2TDC` is a parameter.
* Solver: index arithmetic without 2^32 wrap.
* Voronoi: coordinates are an oracle in the sweep (any answers to comparisons), `m_depth` and `checkBeachLine` (debug)
  are left out.
* Spanning tree and queue clustering: neighbour search and principal-component ordering are arbitrary functions.
* Cluster3D output: positions, seeds, kink points and 2D hit associations are left out.
* Track trees: projections, hit assignment to elements (`MakeProjection`, `SortHits`), node positions and TPC distances
  are parameters.
* TrajCluster: only the bookkeeping functions of `Utils.cxx` and `TCVertex.cxx` (store, kill, restore, split, merge, vertex
  kill/store/check, hit lists, reversal). Charge averages, MCS momentum, particle codes and scores are parameters;
  16-bit counters wrap only where a definition says so; `MergeShowerTjsAndStore` is left out.
* CMTool helpers (`HelperModel.lean`): `CMergeHelper`, `ClusterMergeHelper`, `CBAlgoArray`, `CPAlgoArray`; the algorithms themselves are arbitrary functions.
* TrackCalorimetryAlg (`TrackCaloModel.lean`): projection distances, pitches and dE/dx are arbitrary functions of hit and point; the containers, the order of rows and the residual range are modelled.
* TrajectoryMCSFitter (`McsModel.lean`): scan, two-stage scan, segmentation, cumulative lengths, energy loop; likelihood and energy loss per step are arbitrary functions; the linear regression is not modelled.
* CosmicTracker (`CosmicModel.lean`, `CosmicStitch.lean`, `CosmicProps.lean`): `Track3D`, `MakeSPT`, duplicate removal, stitching and output of the module; the trajectory fit, the angle comparison of track ends and the flips of directions are arbitrary or not modelled.
* Disambiguation (`Hit/DisambigModel.lean`, `Hit/DisambigProps.lean`): all of `DisambigAlg` except the log counters and the distance cut of the end-point finder; the geometry and back-tracker services are arbitrary functions.
* APA geometry (`Hit/ApaGeoModel.lean`, `Hit/ApaGeoProps.lean`): all of `APAGeometryAlg` except the averaging at the end of `ThreeChanPos` and the exceptions of `NearestWireIDOnChan`; `lar::util::ValueInRange` is external and taken in both its possible forms.
* `TrackTrajectoryAlg`, `TrackLineFitAlg` (Track/TtaModel): whole files; the SVD solution is an arbitrary function (least squares is a hypothesis of C195), the square roots are arbitrary functions, the counters are unbounded.
* `Geometric3DVertexFitter`, `VertexWrapper` (Track/VtxFitModel): order of tracks, closest approach, average, failure test, fit loop, quality; the state propagator and the rotation to the local plane are arbitrary functions; square roots appear squared; fitPFP only collects the daughters' tracks and is not modelled.
* `pma::PMAlgCosmicTagger` (all functions), the tag word of `pma::Track3D` and `PMAlgTrackMaker::getCosmicTag` (`Verif.PMAlg.TagModel`). Not modelled: the computation of the dE/dx sequence, the index -1 for a height or length direction that is not along an axis (undefined in the code), the end points stored in `anab::CosmicTag`.
* `PMAlgStitching.cxx`: all functions; the flips, the merge and `setTreeOriginAtFront` inside `StitchTracks` only by their outcome (their own models are those of C114, C115, C116). `PmaTrack3D.cxx`: the recursion shared by `UpdateParamsInTree`, `TuneSinglePass`, `MakeProjectionInTree`, `SortHitsInTree`, `GetObjFnInTree`, `ApplyDriftShiftInTree`, and `SetT0FromDx`.
* `EMShowerAlg.cxx`: all functions but `CheckShowerHits_` (arbitrary check), `FindInitialTrack` (only the choice of planes), `GlobalWire_`, `HitCoordinates_`, `HitPosition_`, `Construct3DPoint_`, `Project3DPointOntoPlane_` (arbitrary geometry), `TMath::RMS`, and the drawing. `EMShower_module.cc`: the loop over events without particle flow objects.
* `GausHitFinder_module.cc`: the loop over a pulse, the filter, the concurrent collection and the products; not the candidate finders, the fits (what they return is arbitrary), the histograms. `HitFilterAlg.cxx` whole. Peak fitters: start values, limits, the refit decision and `FindShiftedGaussian`.
* Calorimetry: `GnocchiCalorimetry_module.cc` (organisation of hits, charge, residual ranges, objects), `Calorimetry_module.cc` (points of hits, direction, dead wires, space points), `ShowerCalorimetry_module.cc` (rows and energy), `CalorimetryAlg.cxx` (corrections, over the reals); not the space charge corrections, pitch geometry and the normalisation tools.
* ClusterCrawlerAlg.cxx: TmpStore, MakeClusterObsolete, RestoreObsoleteCluster, SplitCluster, DoMerge, MergeOverlap (its end), ChkClusterDS/VtxClusterSplit/RefineVertexClusters (the replacement of a cluster), RemoveObsoleteHits, CheckHitDuplicates, GetHitRange, DeadWireCount, KillGarbageClusters, MergeHits and ClusterCrawler_module.cc produce (its check). Fits, angles, the crawling itself and the vertex finding are not modelled; verdicts of fits are inputs.
* TrackKalmanFitter.cxx: everything except the Kalman algebra, the propagator and the making of the initial state, which are arbitrary functions in the model; std::sort is an arbitrary reordering; TrackCreationBookKeeper is in C19 and C56.
* GFBookkeeping.cxx: everything except Print; the entries of a map are in the order of insertion; that ROOT refuses the assignment of matrices of other sizes, and freed memory, are not modelled.
* FFTHitFinder, TTHitFinder, RawHitFinder modules: everything done for one wire; numbers are rational instead of floating point; the fit of FFTHitFinder is an arbitrary function; the loop over wires, bad channels, decompression and the art products are not modelled.
* larreco/RecoAlg/CCHitFinderAlg.cxx: regions, bumps, order and checks of fits, crude hits, stored hits, statistics (CCHit/Model.lean). Not modelled: the Gaussian fits themselves and the square root (arbitrary functions), floating point, the errors of the parameters, the study mode.
* larreco/ClusterFinder/LineMerger_module.cc: grouping, matching and adding of clusters (LineMerge/Model.lean). Not modelled: floating point, errors of the parameters, the charge parameters; arctangent an arbitrary function.
* larreco/RecoAlg/SmallClusterFinderAlg.cxx, larreco/ClusterFinder/SmallClusterFinder_module.cc: everything but the cluster parameters (SmallClus/Model.lean); the distance is an arbitrary function; hits of a plane out of range not modelled.
* larreco/RecoAlg/ShowerEnergyAlg.cxx (SmallClus/Model.lean), the exponential an arbitrary function, rationals for floats.
* larreco/RecoAlg/CMTool/CMTAlgMerge, CMTAlgMatch (QRatio, ZOverlap, TimeOverlap, ShowerCompat), CMTAlgPriority: the decisions and scores (CMAlgos/Model.lean). Not modelled: verbose output, analysis trees, the track separation and out-of-cone algorithms, CFAlgo3DAngle, CFAlgoVolumeOverlap, CFAlgoWireOverlap, CFAlgoStartPoint*; polygons, arc tangent, sine, cosine, root and logarithm are arbitrary functions; rationals for floats.
* larreco/HitFinder/DPRawHitFinder_module.cc: findCandidatePeaks, mergeCandidatePeaks, EstimateFluctuations, AddPeak, SplitPeak, the refit loop, long pulses, noise cut, parameter numbers of the fit function, limits of the peak time, doBinAverage, start/end ticks, multiplicity, index and summed ADC of the hits (DPHit/Model.lean). Not modelled: the ROOT fit (an arbitrary function of the peaks), FindPeakWithMaxDeviation's choice uses arbitrary deviations, hit amplitude, charge, width and errors, log output; rationals for floats.
* `DataProv`: DataProviderAlg.cxx/.h: scaling, three downscaling modes, the image of a plane, pixel lookup, poolMax, blur, both kinds of patches. Not modelled: random noise, geometry lookups, the lifetime correction formula (its factors are a parameter).
* `PmaUtil`: PMAlg/Utilities.cxx and .h (all but the geometry conversions), projections and distances of PmaSegment3D.cxx, weights and selections of PmaElement3D.cxx. Square roots are left out (squares are compared). A singular matrix is taken to raise the exception the code catches; ROOT itself only reports an error.
* `ClusMatch`: ClusterMatchAlg.cxx/.h: summaries, the four tests, both matchings and their histories. The space point algorithm and the crossings of wires are parameters. Not modelled: trees, counters, MC information.
* `PrimVtx`: PrimaryVertexFinder_module.cc: closeness of tracks, the collection of vertices, positions. Lengths are compared by squares; exactly parallel tracks divide by zero and are never close. Not modelled: the sort by length (the tracks are taken in that order), the reading of the first space point of each track (undefined for a track without space points), histograms.
* `GFPlane`: Genfit/GFDetPlane.cxx over the real numbers: axes, normals, conversions, distances, lines, equality, setters. `TVector3::SetMag` leaves zero vectors as they are and `Rotate` about a zero axis does nothing, as in ROOT. Not modelled: rounding, finite planes, the constructor with random axes, graphics; a zero normal (the code divides by zero).
* `Seg2D`: ClusterFinder/TrackShowerSplitter: Segmentation2D and the loops of TrackShowerHits_module over rationals; the clustering of touching hits is a given function that partitions (C48-C50); `std::sort` is stable. Not modelled: Cl2InsideCl1 and the other unused members, the filling of art products beyond number and hits.
* `TrkSep`: RecoAlg/TrackShowerSeparationAlg: SelectShowerHits with all its passes, ReconTrack, Gradient, over rationals (with infinity and not-a-number where the code divides by a count or mean). The test of the cone angle is a given function. Not modelled: InitialTrackLikeSegment and SpacePointsRMS (not called), printing.
* `HitFinder/MCHitFinder_module.cc`: `produce` (53-189). Not modelled: rounding to `float`, the printouts, the order of `sim::MCEnDep` (an abstract linear order), the positions of the hits.
* `SCECorrections/SCECorrection_module.cc`: all of `produce`, `applyT0Shift`, `getSliceT0s`, `getSliceBestT0` over rationals. The calibration map and the drift axes are given functions. Not modelled: the exceptions for missing associations, space points without hits (undefined), labels and settings of different number (exception).
* `ClusterFinder/LineCluster_module.cc`, `ClusterCrawler_module.cc`: the making of end points, vertices, clusters and associations from the result of the crawler, and the check of the second. Not modelled: copied shape parameters, views, places, overflow of the 16 bit counters, hits with wires and digits.
* `RecoAlg/PMAlg/PmaNode3D.cxx`: limits, distance to the wall, `MakeGradient`, `StepWithGradient`, `Optimize`, for rational numbers and any objective function of the place (hits and neighbours fixed). Not modelled: the objective itself, the square root in the step of the gradient, the tolerance of rounding, projections to planes, assigned hits.
* `ClusterFinder/DBCluster3D_module.cc`: slices from the clusters of space points, for rational numbers and any result of the clustering. Not modelled: the aspect ratio and the length of the direction (square roots), the limits 1E6 of the search for the ends and its `float` variables, the check of the labels at the first event.
* `ShowerFinder/ShowerFinder_module.cc`: scans of cones at vertices and the associations, for any corners of the cones. Not modelled: the sines and cosines that give the corners, the product of the cluster associations, division by 0.
* `EventFinder/EventCheater_module.cc`, `HitFinder/DisambigCheater_module.cc`, `ClusterFinder/DBcluster_module.cc`: the collections and associations they write; the scan of a plane and the deposits of a hit are parameters. Not modelled: the look-up of deposits, the nearest wire of a deposit, the parameters of the clusters.
* `VertexFinder/VertexFitter_module.cc`, `VertexFinder/VertexCheater_module.cc`, `TrackFinder/TCTrack_module.cc`, `TrackFinder/TrackProducerFromTrack_module.cc`: the collections and associations they write; the fits and the making of space points are any functions of the tracks and hits. Not modelled: `TrackFitHitInfo`, printing, counters of 16 bits (`ipfp`).
* `RecoAlg/PMAlgVertexing.cxx`, `RecoAlg/PMAlg/PmaVtxCandidate.cxx`: merging, selection and sorting, for any relation of tracks and any fit of a centre. Not modelled: `Add`, `Compute`, `JoinTracks`, kinks, `mergeBrokenTracks`; that a copy of a candidate is a copy (C++) is used.
* `RecoAlg/PMAlg/PmaVtxCandidate.cxx`, `RecoAlg/PMAlgVertexing.cxx`: `Add` and the two passes, for any segments and any fit; `Compute`, `ComputeMse2D` and distances to segments are given functions of tracks and segments; each track has a node; `firstPassCandidates` is for at least one track (its `size() - 1` wraps for none; the caller tests this).
* `HitFinder/HitCheater_module.cc`, `ClusterFinder/ClusterCheater_module.cc`, `ShowerFinder/ShowerCheater_module.cc`, `TrackFinder/TrackCheater_module.cc`: the cutting of a wire into hits (rational charges, no width), the numbers of clusters (no overflow of an int), showers, tracks and associations; all particles are known. Not modelled: the selection of ticks and wires, clusters themselves, directions and momenta.
* `SpacePointSolver/HitReaders/*_tool.cc`, `HitFinder/APAHitFinder_module.cc`, `ClusterFinder/ClusterPCA_module.cc`, `RecoAlg/TCAlg/TCCR.cxx`: reading of hits, copies of hits, entries by view, score and origin; numbers are rational. Not modelled: the principal components, the disambiguation (`RunDisambig` is given), the sums of energy.
* Not reached: TrajCluster stepping and 3D matching, Kalman fitting (genfit), EMShower.

## Findings (refuted expectations, each a theorem with a concrete witness)
* C10/C11: `factorial` wraps from 34 on; plane combinations are right up to 33 planes.
* C16: `CBAlgoArray::Bool` groups from the right. C55: an empty event leaves the previous output.
* C56: space points passed through the book keeper are lost. C51/C72: reset, append and constructors of a track
  candidate leave planes and lengths stale; self-append never ends.
* C27/C57: accumulator `set` writes a wrong range, `get_max` on an empty map is undefined; crossing curves need not share
  a cell. C59: kd-tree pruning along x uses the y–z separation; `FindEntry` never collects candidates.
* C32/C63: negative track numbers, empty clusters and an off-by-one plane are undefined; a chargeless object can win.
* C64: a zero step makes the constructor run forever. C35–C37, C65, C66, C68: long or tiny structuring elements,
  unmirrored windows, skipped last median window, stale end points, reads past the end.
* C44: strides that divide the size visit some positions never. C45, C47: zero threshold, limit exceeded by one.
  C70/C71: positions halved for bad X channels; TPCs without X hits skipped.
* C48–C50: wire 0 is never a neighbour; an empty list makes 2^64−1 rounds.
* C74–C76: last hull edge skipped, sign wrong beyond corners, calipers miss the furthest pair, comparator has cycles.
* C77: 16-bit index never reaches 65536 points. C78–C82: perimeter, vertical edges, sign of the crossing point, closing
  edge, endless untangling, far polygons.
* C86: beach line not balanced. C91–C96: circle centre by slopes, one or two points, erased vertices reused, hull kept
  from the previous build, areas, null faces.
* C102: a border hit keeps its noise mark. C103: an asymmetric search empties clusters. C104: dead-wire table read past
  its end, tree pruning with the wrong edge.
* C106: start time depends on the order of hits; wire 0 has no end time. C108: best hit outside the cluster loses its
  point, rejected hits get points, a parent's own hits get no particle. C109: all Voronoi edge numbers are equal.
* C111: collections with a missing branch skip identifiers. C112: `IsAttachedTo` throws for daughters. C113: 2D search
  mixes distance and squared distance. C114: stale index after the erase. C115: `Flip` without `CanFlip`. C116: inserting
  before the first node of a branch cuts its parent; removing from a two-node track leaves no segment.
* C118: a failed store leaves hits with a number that belongs to no trajectory. C119: restoring after a hit was taken breaks
  the tables. C120: without a vertex both parts keep both old vertices; a refused split drops a muon's code. C121: a merge
  across a vertex attaches the result to the killed vertex; a refused merge has killed the vertex; above 16 hits per point
  both originals are lost. C122/C123: a 3D vertex is never killed for want of 2D vertices; particles stay attached to it.
* C124: a vertex with a wrong number leaves its mark; a trajectory may be listed twice. C125/C126: the checks miss
  inconsistencies. C127: the duplicate test never ends without hits. C128: an angle of -π comes back as π.
* C130: a group average exactly at the last tick throws. C131: a signal falling at tick 1 gives a ghost estimate at 0.
  C132: with threshold 0 the total area can be 0 and the charge is lost.
* C133: with the default `MinDeltaTicks` 0 a pulse that reaches the end reads past it; a negative `MinDeltaPeaks` recurses
  forever; a start tick other than 0 throws or takes the height elsewhere. C135: pairs below the thresholds come along.
  C136: the output vector is not cleared and old candidates are changed.
* C137: of two hits in one bin one is lost. C138: if every bin reaches `MinSeed` the list of bins is read past its end; neighbours are
  counted over all clusters, so a lone bin survives. C140: a dead wire within the radius below a hit makes the blur read before the
  kernel (sign error), dead wires are counted once per tick, and widths that are not whole numbers ≥ 1 leave the kernel table.
* C142: clusters below `MinMergeClusterSize` are lost, if there is none above it one empty cluster is returned; the decision on a pair
  depends on their order (only positive angles are folded).
* `SpacePointAlg_TimeSort::createSpacePoints` reads the first hit of each plane before any check, so an event with an empty plane is
  undefined (`empty_undefined`); its walk misses matching triples (`triples_complete_refuted`), one hit exactly `TimeDiffMax` early hides
  the later ones (`triples_edge_refuted`), and `xyz_err[1]`, `[3]`, `[4]` are never written.
* `ClusterMatchTQ` matches clusters that did not pass the test with one another (`partner_refuted`) and leaves out clusters that pass
  (`left_out_refuted`); `clulens` has `nplanes` entries but is indexed by view.
* `StitchAlg::FindHeadsAndTails` keeps the head/tail flags of earlier candidates, so a link may name an end that does not match
  (`link_ends_refuted`); the protection against repeats removes one per component (`repeats_refuted`); `CommonComponentStitch` loses tracks
  when the common track is inside the later composite (`join_loses_refuted`). In `TrackStitcher_module.cc` the inner loop over `jj`
  increments `ii`.
* `SpacePointAlg::makeSpacePoints` declares `sptmap` outside the loop over TPCs, so the points of a TPC are put out again after every later TPC
  (`repeat_refuted`, `filter_repeat_refuted`). Two-view points are numbered `sptmap.size()`, three-view points `sptmap.size() - 1`: a three-view
  point made after a two-view point throws "hit already present" (`throws_refuted`). Merged points are numbered `sptmap.size() + spts.size() - 1`:
  merging two-view points always throws (`merge_two_view_throws`), and so does merging three-view points of two TPCs (`merge_tpcs_refuted`).
  The tick offsets of the configuration are used only by `correctedTime`. Arrays of three are indexed by plane number.
* ClusterMergeHelper: after `Process` on an event without clusters both getters throw "must call Process()" (`C160_empty_event_refuted`).
* CBAlgoArray: mixed AND/OR arrays stop too early (`C161_mixed_refuted`); CPAlgoArray multiplication always answers 0 (`C162_product_refuted`).
* TrackCalorimetryAlg: a track with hits but without trajectory points reads beyond the end (`C163_no_points_undefined`).
* TrajectoryMCSFitter: no rise of 0.5 in the coarse scan gives p = −1 (`C166_no_uncertainty_refuted`); all momenta rejected reads `vlogL[-1]` (`C166_all_rejected_refuted`); constant-loss mode accepts exhausted momenta with negative energies (`C168_mip_negative_energy_refuted`); mode 2 passes E where E² is expected (`energyLossBetheBloch`).
* CosmicTrackerAlg: no hits on plane 0 is undefined behaviour in `Track3D` (`C169_plane0_refuted`); wire and time are exchanged in the first term of the track length, which loses all points of tracks with opposite wire order (`C169_swapped_length_refuted`); `SPTAlg=1` without `TrajOnly` is undefined behaviour (`C169_sptalg1_refuted`); the test for a point on the other side uses the wrong index (`C170_other_side_refuted`); two trajectory points with equal projection make the module throw (`C170_equal_projection_refuted`); hits on equal wire numbers of different TPCs displace each other (`C169_one_hit_per_wire`).
* CosmicTracker module: in `TrajOnly` mode space points are sorted after the associations were made (`C173_sorted_after_association_refuted`).
* DisambigAlg: two hits with equal channel and peak time become one (`C175_same_time_lost_refuted`); `HitsOverlapInTime` adds the U offset to the start of the second window and never shifts a second collection hit (`C179_symmetry_refuted`, `C179_z_offset_refuted`); ambiguous hits alone never decide although the comment says so (`C181_ambiguous_unanimous_refuted`); the end-point finder starts its maximum at 0 and does not reset it before the reflected pass, so cones at negative angles and around the backward direction are never found (`C182_negative_cone_refuted`, `C182_reflection_useless`), and wraps channel distances on one side only (`C182_wrap_refuted`); the V-only branch of `UseEndPts` repeats the U-only condition and is dead (`C183_v_only_refuted`); a neighbour hit longer than the search range is missed (`C184_covering_window_refuted`); an invalid wire makes `Crawl` loop forever (`C177_invalid_wire_refuted`).
* APAGeometryAlg: `FirstChannelInView(view, chan)` adds the cryostat offset twice, so in every cryostat but the first the wrap of `MakeCloseHits` leads to a channel of another view (`C187_second_cryostat_refuted`, `C187_crawl_second_cryostat_refuted`); `NearestWireIDOnChan` compares a number of wires with a length in cm (`C188_units_refuted`); `LineSegChanIntersect` subtracts the extension from an unsigned wire number (`C189_low_wires_refuted`, `C189_far_wires_refuted`); `ThreeChanPos` uses a crossing of another TPC if there is none in its own (`C190_other_tpc_refuted`).
* `TrackTrajectoryAlg::ShortTrackTrajectory` does not clear the list of planes between its passes: an end seen by one plane only is accepted, the wire is crossed with itself, and the trajectory gets the coordinates of the invalid crossing (C192). The directions of a trajectory with falling X are not turned round (C193). `TrkLineFit` with exactly four hits reports success without writing its result: the caller stores a stale or zero position (C194, C195). Its chi-square divides the residuals by the weights (C195). `ChiDOF` is read uninitialised if the first bin has fewer than four hits.
* `Geometric3DVertexFitter` tests a failed average with `chi2 <= kBogusD - 1` while the failure is reported as `kBogusD`: it is never seen, and the vertex moves to the origin of the local plane with a chi-square of -999 (C199). Parallel tracks divide by zero (C197).
* C204: the flag values overlap (`kBeamIncompatible` = partial | complete, `kGeometry_ZZ` = YY | YZ), so `getCosmicTag` saves a track partly outside of the drift window also as incompatible with the beam, a track from top to bottom also as crossing the length, and so on (`C204_only_met_refuted`, exact table in `C204_saved_exactly`).
* C206: `tagApparentStopper` takes the last dE/dx value whichever end of the track it belongs to (`C206_orientation_refuted`).
* C209: a reconstructed T0 of exactly zero is taken for a missing one (`C209_zero_t0_refuted`).
* C205: the number reported counts a track once per criterion (`C205_count_refuted`).
* `TrackTrajectory` moves the start index of a bin to the last hit of the bin before, although neighbouring bins overlap by a bin width: from the second point on, the fit misses the hits between the previous origin and the last hit of the previous bin (C210).
* `PMAlgStitching` takes the shift from the first track only and never tests how far the second one is from the surface: a collinear track 300 cm away is stitched (C217). Its test of the directions accepts ends that point away from each other (C217). Two tracks of the same tree can be matched: the two shifts cancel and all tracks of the tree are marked as having the measured T0 zero (C218).
* `EMShower_module.cc` increments neither the shower number nor the space point number: all showers have number 0, selecting another one gives none, and all space points of a shower are associated with the hits of the first one (C224). `FindShowers` does not merge two showers joined by a later track, a cluster ends up in both (C222). `CheckShowerPlanes` looks only at the first shower (C223).
* `FindOrderOfHits_` keys a map by the projection, so hits with equal projections are lost (C225). `CheckIsolatedHits_` with two hits in the wrong TPC moves the first one and a good one (C226). `OrderShowerHits` throws for a desired plane if another plane has hits, and planes of equal widths overwrite each other in its map (C227). `FindShowerStart_` can use the second hit twice (C229).
* `ConstructTrack` reverses the points but not the directions of a track (C232). `FinddEdx_` divides 0 by 0 if the pitch is 0 or equal to the length (C231). `MakeSpacePoints` never checks whether the hit of the third plane is used (C230). `ShowerHitRMSGradient_` puts the last hit into one more segment (C239).
* `GausHitFinder`: a long pulse limited by LongMaxHits can lose its last ticks (424 ticks, 25 pieces: eight) and have one piece more than LongMaxHits (C240); after a peak that is skipped the next ones take their own parameters for those of a neighbour (C241); the order of the hits depends on the schedule (C244); the default instance is declared but not put with a name and no filter (C245); the error of the charge is 2 dA dsigma (C246). `FindShiftedGaussian` keeps a signed offset, so after a candidate before a peak nothing closer is found (C248); a refit adds a peak without changing the multiplicity, and with one candidate the windows of the two hits overlap (C249).
* Calorimetry: hits of different TPCs with the same wire number and times are merged as one snippet and with the sum of the region of interest the charge of one is lost (C251, C252); if both ways to match the ends are equally long the residual range is always to the first hit (C253); a hit with several entries uses only the first ones (C255); tracks of up to four hits always go upstream (C256); the closest hit to a dead wire is searched with the distance of the last hit (C257); space points at equal distances overwrite each other (C258); the energy of a shower leaves the pitch out and hits without space point give rows of zeros (C259); the modified box model with 0.93 gives energy for no charge (C260); Birks' law gives negative energies above its pole (C261).
* C264/C268/C272: a TmpStore that fails leaves the marks it has set: the hits are lost, the number is given to the next cluster, and RemoveObsoleteHits indexes tcl with it.
* C265: TmpStore accepts two hits but reads fcl2hits[2] and fcl2hits[size - 3] for the charges.
* C269: SplitCluster at position <= 2 with at most pos + 3 hits deletes the cluster and returns true; on a failure of the second store with pos <= 2 it deletes the last cluster, which is unrelated.
* C270: with 32767 clusters DoMerge deletes both clusters.
* C271: MergeOverlap sets EndVtx = tcl[icl].BeginVtx.
* C273: RefineVertexClusters does not look at the result of TmpStore and gives the vertex to whichever cluster is last.
* C277: KillGarbageClusters computes jLoIndx = tcl[icl].EndWir - tcl[icl].EndWir (always 0): times of different wires are compared.
* C278: MergeHits declares hits obsolete before it finds that the signal sum is zero.
* C281: with pickBestHitOnWire_ the masks of the other hits on the wire are not looked at: an excluded hit can replace a good one.
* C282: without sortHitsByPlane_ the mask NoPoint is not looked at.
* C286: sortOutput with sortOutputHitsMinLength_: excluded points at the start are rejected but not taken out of tracksInPlanes: they can come twice, and as many points at the end are lost.
* C287: the search for points without momentum ends at the first point that is not valid.
* C288: with tryBothDirs_ the backward fit starts at the vertex, not at the end.
* C289: the second attempt keeps masks (and track state) of the first one.
* C292/C297: map[key] in the checks of setMatrix etc. and of bookNumbers makes null entries: later reads, and a copy (of a GFTrack after GFDaf::processTrack), use a null pointer.
* C293: bookNumbers looks at fPlanes instead of fNumbers (GFBookkeeping.cxx:230): numbers booked twice are lost, and a key of planes cannot be used for numbers.
* C294/C295: a key booked for numbers, then for planes, makes the streamer (reading) and reset throw.
* C300: FFTHitFinder: a flat dip between two pulses is no strict minimum: all later pulses get the ends of other pulses.
* C303: FFTHitFinder: for a pulse with one tick above half its height the window is empty, the summed charge 0.
* C304: TTHitFinder: a charge of -999 is taken for a failed check.
* C305: TTHitFinder reads one tick beyond the signal (`time_bin + half_width > signal.size()`, and `*(timeIter + 1)` with an even width).
* C306: TTHitFinder: with an even width the charge is that of a window one tick before the hit.
* C309: RawHitFinder: the width can be the root of a negative number when the tail is negative.
* C310: RawHitFinder: the last tick above threshold is not part of the summed charge.
* C312: RawHitFinder, induction: the first tick of the dip is counted twice in the charge.
* C313: RawHitFinder, induction: division by zero for a waveform that begins below zero; a tick of exactly zero between two dips gives both the same time.
* CCHitFinderAlg: a region of exactly 1000 ticks whose fits fail gives no hit and is counted as an accepted fit (C315_thousand_refuted, C320_refuted).
* CCHitFinderAlg: a run above threshold that reaches the last three ticks of a signal gives no hit; `maxtime` wraps around for signals of fewer than two ticks (C314_end_refuted).
* CCHitFinderAlg: with ChiSplit > 9999 a refused fit stores the Gaussians of the region before, or none (C317_stale_refuted).
* LineMerger: two matching clusters of different planes of one view: the second is dropped with its hits (C322_refuted).
* LineMerger: the end of a merged cluster is the end with the lowest wire, so that a merged cluster does not reach the end of its last part (C324_end_refuted).
* LineMerger: the hits of the cluster that follows come before those of the first (C325_order_refuted); one pass only: the result depends on the order (C328_refuted).
* SmallClusterFinder: a RadiusSizePar of 0 or less never ends (C330_refuted); the TPC is ignored (C332_tpc_refuted); 100 small clusters on a plane take the numbers of the next plane (C333_refuted); no products for events without hits (C334_refuted).
* CBAlgoAngleSeparate reads the number of hits of cluster 2 from cluster 1, so the answer depends on the order (C336_separate_refuted); CBAlgoCenterOfMass is not symmetric if a number of hits counts as small and big (C336_com_refuted).
* CBAlgoAngleCompat/Align/Incompat: 359 and 1 degrees are incompatible (C337_refuted).
* CBAlgoMergeTinyWithBig never merges with its default settings, the distance cut is 0 (C339_default); CBAlgoPolyHitOverlap always answers no.
* CFAlgoZOverlap and CFAlgoTimeOverlap depend on the order of the clusters (C343_refuted, C344_refuted); a cluster that starts at time 0 is taken for none (C344_zero_refuted).
* DPRawHitFinder: the configured width of long pulses is a member that a long group overwrites, so later groups and events are divided differently (C355_history_refuted); a group of 19 ticks with LongMaxHits 10, LongPulseWidth 1 gets 11 hits and loses 8 ticks (C355_refuted); LongMaxHits 0 divides by zero.
* DPRawHitFinder: the noise cut sums with an int start value, so each partial sum is truncated (C356_refuted).
* DPRawHitFinder::CreateFitFunction uses parameter 2*(i+1)+1 in the denominator where 4*i+3 is meant if shapes differ (C357_refuted).
* DPRawHitFinder::findCandidatePeaks: a candidate can end one tick after the region, which is then read (C347_refuted); the comparisons with neighbouring ticks read outside the vector; a region of at most four ticks is not searched (C349_refuted); doBinAverage is too small for regions shorter than half the window (C359_refuted).
* `DataProviderAlg::getPatch` makes a vector without elements and lets the patch functions write into it; the zero level is outside the output range if 0 is not between AdcMin and AdcMax; the mean around the maximum reads lifetime factors beyond the table for signals longer than the number of time samples; blurring an image with fewer wires than the right half of the kernel runs over its end; odd patch sizes leave the last row and column; the full-resolution patch near drift 0 is shifted instead of padded, and padding is scaled a second time (C361, C364, C365, C368, C369, C370).
* `SolveLeastSquares3D` returns not-a-number if one of the lines has two equal points; `bSegmentProjLess` compares the first point with itself; `UpdateHitParams` takes the hits of the first next element as often as there are next elements; a hit projected to a short segment projection gets fraction 0 and the middle of the segment; `SelectRndHits` may leave one and a half times the maximum in use, and thins an element by the number of hits of its neighbours so that a single hit may be lost (C372, C375, C377, C378, C379).
* `ClusterMatchAlg`: the charge of a cluster starts at -1; times before -1 do not set the largest times; two clusters without hits overlap in time; the charge ratio depends on the order; the z test passes if the first wires do not cross; cluster numbers are cut to 16 bits; in debug mode clusters without hits match if no space points are asked for; matching two planes of a three-plane detector uses the first cluster of the third plane and fails without one; matching without clusters leaves the matches of the previous event; the time window compares corrected with uncorrected times (C380-C389).
* `PrimaryVertexFinder`: only the first track of a pair must start near the vertex, so closeness depends on the order; a track can be in two vertices (C390, C395).
* `GFDetPlane`: a zero first axis is accepted and leaves a plane with both axes zero; `operator==` is not transitive and tells apart two descriptions of one plane; a line in the plane gets the coordinates 10^100 (C397, C400, C401, C402).
* `Segmentation2D::run` leaves the last single hit of a cluster in no part (C404); it does not end with `MaxLineDist` 0 (C405) or `DenseMinNVtx` 0 (C408: `mergeClusters` answers 0, the index of an unrelated part, for fewer than two indices).
* `Segmentation2D::mergeClusters` merges only tagged parts behind `idxs.front()`, which is the first neighbour, not the smallest index: a dense part with only larger neighbours is left out, stays tagged, and may be swallowed by a later merging far away; the choice between start and end compares indices instead of counts (C409).
* `TrackShowerSeparationAlg::SelectShowerHits`: if no space point is near any track (mean ratio 0), or one track has no space points, no track is marked as track (C415); the second pass depends on the order of keys (C416); the search of tracks in shower cones has no effect on the result (C418); a space point of no track inside a cone makes `at(0)` throw, and a track that is not in the list is followed through a null pointer (C420); tracks of constant x have no direction (C421).
* MCHitFinder (132-135): charge of a deposit that comes after an empty count, or a second time in the same count, is dropped without notice, so the charge of a channel is not conserved (`C425_refuted_gap`, `C425_refuted_twice`).
* SCECorrection: a slice without time is copied without its hits and particles (207 `continue` after the copy), and a copied space point is associated with the first of its hits only (319) (`C432_refuted`).
* LineCluster (138, 142, 236, 263): the entry of a 2D vertex without clusters in the index table is 0, so a cluster that still names such a vertex is associated with the first end point, that of another vertex or none (`C435_refuted`, `C435_refuted_dangling`).
* pma::Node3D::StepWithGradient (848): the node stays at the last place tried, also if that is worse than the start and than places tried before; then the value returned is negative (`C442_refuted`). The exits at 754-763 and 795-806 choose a point but do not set the node to it; they are not reached with exact numbers, since the volume is convex (`in_seg`).
* pma::Node3D::MakeGradient (633-639): at the border the place above is limited but the difference is still divided by the full step, so the component is half of the true one (`C439_refuted_border`).
* DBCluster3D (226): a cluster whose space points have the same x (a track in the plane of the wires) has `delta` 0 and is not written as a slice, its hits and space points are in no slice (`C447_refuted`).
* DBCluster3D (159): hits "not associated with any spacepoints" are also those whose first space point is in no cluster, also if another of their space points is in one.
* ShowerFinder (214-215): the lines of the cone are taken at `x_hit` in place of `x_hit - xa_cone`, so the test is only right for vertices at wire 0: hits in the cone are missed and hits behind the vertex are counted (`C452_refuted`).
* ShowerFinder (261): a cluster can be in the showers of several scans and vertices (`C453_refuted`), as the comment there says.
* EventCheater (109-121): `ptrvs` is declared and never filled, so that no event is ever associated with hits; and (114) the number is `size() - 1` before the event is added, so that the first event is number -1 (`C455_never`).
* DisambigCheater (263-273): if no wire of the channel is near, the wire nearest to the deposit is taken, which may not be of the channel (`C458_refuted`).
* DisambigCheater (155, 202): the wires are stored under the channel and peak time, so that a later hit with the same channel and time and without deposits erases the wires of an earlier one (`C458_refuted_key`).
* TrackProducerFromTrack (100-106): `associated_groups` gives no group for a track without hits, but the groups are counted to get the track, so that after such a track each track is fitted with the hits of the next (`C466_refuted`).
* TCTrack (81): the key of a cluster is taken to be its `ID` minus one; for clusters with other numbers the hits of a wrong cluster are used (`C464_refuted`).
* VertexCheater (204): the vertex of the daughters of a particle is put where this particle starts, not where they do (`C463_refuted`).
* VertexFitter (116-127): a track of two daughters is given twice to the fit and to the association (`C461_refuted`).
* VtxCandidate::MergeWith (289-298): if a track of the other candidate is attached, the merge is refused, but the tracks added before it stay in the candidate, without a new fit (`C470_refuted`); since a track is attached to itself, this happens whenever the two share a track that is not the first.
* PMAlgVertexing::makeVertices (170-173): when a candidate is replaced by a larger one, those compared with it before are not compared again, so that contained candidates stay (`C471_refuted`).
* VtxCandidate::Add (153-161): a closer pair of segments is left out if it is much shorter than the pair taken so far, and then a third pair, less close and shorter than it, can be taken (`C479_refuted`).
* VtxCandidate::Add (139, 175-181): when a second track is refused the segment of the first track stays at the last one that was tried, and the centre is reset (`C480_refuted`).
* ShowerCheater::produce (186): the hits associated with a shower are taken with `fmh.at(i)`, where `i` counts the clusters of the shower, not with the index of the cluster, so that they are those of the first clusters of the event (`C489_refuted`).
* HitCheater::FindHitsOnChannel (240, 292): the end of the last hit of a wire is one after its last tick, that of the others is the last tick (`C485_refuted`).
* ClusterCheater::produce (218): the number of a cluster is the same for different clusters if there are ten TPCs or more, and with a hundred the particle is read wrongly (`C486_refuted`).
* ClusterPCA::analyze (115-124): a cluster in a view that is not supported is entered with the view of the cluster before it, and as the first of a later event it is written outside of the array, since `fView` is 3 after each event (`C496_refuted`).
* Dead code met on the way: A* search, `CheckHitSorting`, `PruneAmbiguousHits`, `splitClustersWithHough`.
