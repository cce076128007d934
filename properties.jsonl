{"id": "C01", "title": "Merge book keeper always reports a partition", "statement": "After CMergeBookKeeper is Reset(n) and driven through any sequence of ProhibitMerge/Merge/Combine calls (including rejected ones), GetResult() is a partition of {0..n-1}: every input index is in exactly one group, no group is empty, each group is strictly ascending and groups are ordered by their smallest member.", "quantifier": "every n, every finite sequence of calls with arbitrary arguments", "why_tests_cant": "depends on every call history; tests only sample a few short histories", "anchors": ["larreco/RecoAlg/CMTool/CMToolBase/CMergeBookKeeper.cxx:Reset,ProhibitMerge,Merge,Combine,PassResult"]}
{"id": "C02", "title": "IsMerged is the equivalence closure of accepted merges", "statement": "IsMerged(i,j) answers true exactly when i and j are connected by a chain of Merge requests that were accepted since the last Reset.", "quantifier": "every call history and every pair of in-range indices", "why_tests_cant": "needs all histories and all chains", "anchors": ["larreco/RecoAlg/CMTool/CMToolBase/CMergeBookKeeper.cxx:Merge,IsMerged"]}
{"id": "C03", "title": "Merge prohibitions are enforced exactly", "statement": "MergeAllowed(i,j) is false (and Merge(i,j) is refused with an exception) exactly when i and j are in different groups and some accepted ProhibitMerge(a,b) relates a member of i's group to a member of j's group; hence no prohibited pair is ever merged and no unrelated pair is refused, however many merges have re-indexed the prohibition table in between.", "quantifier": "every call history, every pair of distinct in-range indices", "why_tests_cant": "the triangular prohibition table is re-indexed in place by each merge; only induction over histories covers all shapes", "anchors": ["larreco/RecoAlg/CMTool/CMToolBase/CMergeBookKeeper.cxx:ProhibitMerge,MergeAllowed,Merge"]}
{"id": "C04", "title": "Rejected book-keeper calls change nothing and valid calls never go out of range", "statement": "A Merge or ProhibitMerge call that throws (identical indices, index out of range, already merged, prohibited) leaves the observable state (GetResult, IsMerged, MergeAllowed) unchanged; and for in-range arguments none of the internal bounds-checked accesses can throw.", "quantifier": "every reachable state and every argument pair", "why_tests_cant": "needs every reachable state", "anchors": ["larreco/RecoAlg/CMTool/CMToolBase/CMergeBookKeeper.cxx:ProhibitMerge,Merge"]}
{"id": "C05", "title": "Combine composes the two merge results", "statement": "If this->Combine(another) succeeds, then two original inputs are merged afterwards iff another merges the (old) output groups they belonged to; the new k-th output group is the union of the old groups in another's k-th group.", "quantifier": "all reachable pairs of book keepers of compatible sizes", "why_tests_cant": "quantifies over two histories", "anchors": ["larreco/RecoAlg/CMTool/CMToolBase/CMergeBookKeeper.cxx:Combine"]}
{"id": "C06", "title": "Book keeper queries agree with each other", "statement": "GetMergedSet(i) returns, in ascending order, exactly those j for which IsMerged(i,j), and is one of the groups of GetResult().", "quantifier": "every reachable state and index", "why_tests_cant": "all histories", "anchors": ["larreco/RecoAlg/CMTool/CMToolBase/CMergeBookKeeper.cxx:GetMergedSet,IsMerged,PassResult"]}
{"id": "C07", "title": "Match results never share a cluster", "statement": "CMatchBookKeeper::GetResult() returns only registered index sets and any two returned entries share no cluster index.", "quantifier": "every finite sequence of Match calls", "why_tests_cant": "all registration histories and index values (bitmap is resized on the fly)", "anchors": ["larreco/RecoAlg/CMTool/CMToolBase/CMatchBookKeeper.cxx:Match,PassResult"]}
{"id": "C08", "title": "Match selection is greedy by score", "statement": "The sets in GetResult() are considered from highest to lowest score (among equal scores, last registered first); a registered set is missing from the result exactly when it shares a cluster with a set already accepted before it in that order. In particular the best-scoring registration is always returned.", "quantifier": "every finite sequence of Match calls", "why_tests_cant": "all histories, all ties", "anchors": ["larreco/RecoAlg/CMTool/CMToolBase/CMatchBookKeeper.cxx:Match,PassResult"]}
{"id": "C09", "title": "Cluster-combination enumeration is complete and duplicate free", "statement": "ClusterCombinations(seed) with every seed entry positive returns each tuple (c_0..c_{k-1}) with c_i < seed_i exactly once, in lexicographic order; it terminates for every seed.", "quantifier": "every seed vector", "why_tests_cant": "odometer loop over unbounded sizes", "anchors": ["larreco/RecoAlg/CMTool/CMToolBase/CMatchManager.cxx:ClusterCombinations"]}
{"id": "C10", "title": "Plane-combination enumeration is complete and duplicate free", "statement": "SimpleCombination(n,r) for 1<=r<=n returns every r-element subset of {0..n-1} exactly once, each in ascending order; PlaneClusterCombinations returns every choice of at least two planes with one cluster from each, exactly once, larger plane counts first.", "quantifier": "every n, r and seed", "why_tests_cant": "combinatorial; unbounded n", "anchors": ["larreco/RecoAlg/CMTool/CMToolBase/CMatchManager.cxx:SimpleCombination,PlaneClusterCombinations"]}
{"id": "C11", "title": "Matched sets take one cluster from each of at least two planes", "statement": "Every set CMatchManager reports contains at least two clusters, all from pairwise different planes, each with positive priority; every such combination is offered to the matching algorithm.", "quantifier": "all cluster lists, plane assignments, priorities and match algorithms", "why_tests_cant": "all inputs and all algorithms", "anchors": ["larreco/RecoAlg/CMTool/CMToolBase/CMatchManager.cxx:IterationProcess"]}
{"id": "C12", "title": "Cluster merging conserves hits and matches its book keeper", "statement": "After CMergeManager::Process, GetClusters()[k] contains exactly the hits of the input clusters listed in GetBookKeeper().GetResult()[k], for every k; no hit is lost, duplicated or moved to another plane.", "quantifier": "all cluster lists, all merge/separate/priority algorithms, any number of iterations", "why_tests_cant": "composes arbitrarily many merging iterations and the final Combine chain", "anchors": ["larreco/RecoAlg/CMTool/CMToolBase/CMergeManager.cxx:Process,IterationProcess,EventEnd,RunMerge"]}
{"id": "C13", "title": "Iterative merging terminates", "statement": "CMergeManager::Process with MergeTillConverge terminates after at most (number of input clusters) iterations whatever the algorithms answer.", "quantifier": "all inputs and all algorithm behaviours", "why_tests_cant": "termination", "anchors": ["larreco/RecoAlg/CMTool/CMToolBase/CMergeManager.cxx:IterationProcess", "larreco/RecoAlg/CMTool/CMToolBase/CMManagerBase.cxx:Process"]}
{"id": "C14", "title": "Only same-plane, positive-priority, mutually allowed clusters are merged", "statement": "In one merging pass, clusters that end up in one group are connected by pairs that are on the same plane, both have positive priority, and for which the merge algorithm answered true; a pair for which the separation algorithm answered true never ends up in one group.", "quantifier": "all inputs and algorithms", "why_tests_cant": "all algorithm answers", "anchors": ["larreco/RecoAlg/CMTool/CMToolBase/CMergeManager.cxx:RunMerge,RunSeparate", "larreco/RecoAlg/CMTool/CMToolBase/CMManagerBase.cxx:ComputePriority"]}
{"id": "C15", "title": "Priority ordering", "statement": "ComputePriority orders clusters by decreasing priority, equal priorities by increasing cluster index, and omits exactly the clusters whose priority is not positive.", "quantifier": "all cluster lists and priority functions", "why_tests_cant": "all inputs incl. ties", "anchors": ["larreco/RecoAlg/CMTool/CMToolBase/CMManagerBase.cxx:ComputePriority"]}
{"id": "C16", "title": "Composite boolean algorithm evaluates its AND/OR chain", "statement": "CBAlgoArray::Bool returns the left-to-right value of its chain of AND/OR sub-algorithms.", "quantifier": "every chain and every sub-algorithm outcome", "why_tests_cant": "exponentially many chains", "anchors": ["larreco/RecoAlg/CMTool/CMTAlgMerge/CBAlgoArray.cxx:Bool", "larreco/RecoAlg/CMTool/CMTAlgMerge/CBAlgoArray.h:AddAlgo"]}
{"id": "C17", "title": "Prev/Next links of PMA track elements stay mutually consistent", "statement": "After any sequence of constructor, AddNext, RemoveNext and Disconnect calls on any mix of plain and branching elements: y is among x's Next elements exactly when y's Prev is x; no element appears twice among another's Next elements.", "quantifier": "all element populations and call sequences", "why_tests_cant": "heap-shaped invariant over all histories", "anchors": ["larreco/RecoAlg/PMAlg/SortedObjects.cxx:AddNext,RemoveNext,Disconnect"]}
{"id": "C18", "title": "Adding or removing a link has exactly the requested effect", "statement": "AddNext(y) on x, when it returns true, makes x the Prev of y, removes y from its former predecessor, and changes no other element's Prev except (for a plain x) the successor it displaced; RemoveNext undoes it; Disconnect leaves the element without Prev and Next and touches only its neighbours.", "quantifier": "all reachable structures", "why_tests_cant": "frame condition over unbounded heaps", "anchors": ["larreco/RecoAlg/PMAlg/SortedObjects.cxx:AddNext,RemoveNext,Disconnect"]}
{"id": "C19", "title": "Track book keepers keep their parallel vectors in step", "statement": "After any sequence of addPoint calls on a TrackCreationBookKeeper, positions, momenta, flags and the output hit vector have equal length and the k-th entries come from the k-th call; the track gets number of non-negative chi2 values minus nfittedpars degrees of freedom and their sum as chi2 unless setTotChi2 overrides it.", "quantifier": "all call sequences", "why_tests_cant": "all histories", "anchors": ["larreco/RecoAlg/TrackCreationBookKeeper.h", "larreco/RecoAlg/TrackTrajectoryCreationBookKeeper.h"]}
{"id": "C20", "title": "DBSCAN labels core, border and noise points correctly", "statement": "After dbscan(), no point is left unclassified; a point is noise exactly when it is not a core point (has fewer than minpts epsilon-neighbours) and has no core point within epsilon; every non-noise point that is not core shares the label of a core point within epsilon.", "quantifier": "all point sets, epsilon, minpts and bad-channel counts", "why_tests_cant": "all geometries; order dependent loop with in-flight list growth", "anchors": ["larreco/RecoAlg/DBScan3DAlg.cxx:dbscan,expand,spread"]}
{"id": "C21", "title": "DBSCAN clusters are the density-connected components", "statement": "Two core points get the same cluster id exactly when they are linked by a chain of core points each within epsilon of the next; so the grouping of core points does not depend on input order.", "quantifier": "all point sets and parameters", "why_tests_cant": "reachability over arbitrary chains", "anchors": ["larreco/RecoAlg/DBScan3DAlg.cxx:dbscan,expand,spread"]}
{"id": "C22", "title": "DBSCAN cluster ids are contiguous", "statement": "The cluster ids assigned are exactly 0..k-1 for some k and every id is carried by at least one core point.", "quantifier": "all point sets and parameters", "why_tests_cant": "all inputs", "anchors": ["larreco/RecoAlg/DBScan3DAlg.cxx:dbscan,expand"]}
{"id": "C23", "title": "Fit-function cache returns stable, correctly shaped functions", "statement": "GausFitCache::Get(n) returns the same function object every time for the same n, whatever other requests came between, and distinct objects for distinct n; the function is a sum of n Gaussians using parameters 3i..3i+2. Compiled caches succeed exactly for n<=MaxGaus, and a rejected request does not disturb later ones.", "quantifier": "every request sequence", "why_tests_cant": "all request histories", "anchors": ["larreco/RecoAlg/GausFitCache.cxx:Get,CreateFunction", "larreco/RecoAlg/GausFitCache.h:CompiledGausFitCache,FuncSum"]}
{"id": "C24", "title": "Hough accumulator range update touches exactly its range", "statement": "increment/decrement of a key range [b,e) changes by +1/-1 exactly the counters b..e-1 (across block boundaries) and increment_and_get_max returns the largest updated value above the given threshold and its key.", "quantifier": "all counter states and ranges b<e", "why_tests_cant": "block boundaries and arbitrary states", "anchors": ["larreco/RecoAlg/HoughBaseAlg.cxx:unchecked_add_range_max"]}
{"id": "C25", "title": "Adding then subtracting a point restores the Hough accumulator", "statement": "SubtractPoint(x,y) after AddPointReturnMax(x,y) restores every counter and the accumulated-point count; points outside the declared range change nothing; the order in which points are added is irrelevant to the counters.", "quantifier": "all accumulators, points and interleavings", "why_tests_cant": "all interleavings", "anchors": ["larreco/RecoAlg/HoughBaseAlg.cxx:DoAddPointReturnMax,AddPointReturnMax,SubtractPoint"]}
{"id": "C26", "title": "Hough curve of a point has no gaps", "statement": "For each point, the cells incremented at consecutive angle steps form one connected curve: the cells of each angle form a contiguous distance range which joins the range of the previous angle.", "quantifier": "all points and tables", "why_tests_cant": "all inputs", "anchors": ["larreco/RecoAlg/HoughBaseAlg.cxx:DoAddPointReturnMax"]}
{"id": "C27", "title": "Range set and maximum search of Hough counters", "statement": "set(b,e,v) sets exactly the counters b..e-1 to v and returns; get_max(m) returns the largest stored counter greater than m.", "quantifier": "all counter states and ranges", "why_tests_cant": "all states", "anchors": ["larreco/RecoAlg/HoughBaseAlg.cxx:unchecked_set_range,get_max,GetMax"]}
{"id": "C28", "title": "kd tree holds exactly the input hits", "statement": "BuildKdTree on n>=1 hits terminates and yields a tree whose leaves are the input hits, each exactly once, with no null nodes; every split separates coordinates (left <= split value <= right).", "quantifier": "all hit lists", "why_tests_cant": "recursion over all inputs, duplicated coordinates", "anchors": ["larreco/RecoAlg/Cluster3DAlgs/kdTree.cxx:BuildKdTree"]}
{"id": "C29", "title": "kd tree lookups are sound", "statement": "FindEntryBrute answers true exactly for hits in the tree; FindNearestNeighbors never returns the reference hit, returns only hits of the tree satisfying the compatibility requirements, each at most once.", "quantifier": "all trees, reference hits, starting distances", "why_tests_cant": "all inputs", "anchors": ["larreco/RecoAlg/Cluster3DAlgs/kdTree.cxx:FindEntryBrute,FindNearestNeighbors,consistentPairs"]}
{"id": "C30", "title": "Back-tracker conserves charge", "statement": "For each plane the entries of MCQSum(plane) add up to the number of electrons deposited on that plane's channels; for each hit MCQ(hit) adds up to the electrons deposited on that channel within the (tick-converted) window; for a hit list it is the entrywise sum.", "quantifier": "all simulation inputs, registrations and hits", "why_tests_cant": "all inputs", "anchors": ["larreco/MCComp/MCBTAlg.cxx:ProcessSimChannel,MCQ"]}
{"id": "C31", "title": "Back-tracker indices identify registered particles", "statement": "Index(id) is the same for two registered ids iff they were registered in the same group; unregistered ids map to the invalid index; charge of unregistered particles goes to the last entry only.", "quantifier": "all registration lists", "why_tests_cant": "all inputs incl. repeated ids", "anchors": ["larreco/MCComp/MCBTAlg.cxx:Register,Index,ProcessSimChannel"]}
{"id": "C32", "title": "Back-tracker accessors reject invalid requests", "statement": "No request can read outside the stored tables: invalid planes, channels or track ids are rejected or treated as 'other'.", "quantifier": "all requests, including negative track ids", "why_tests_cant": "includes values no test author thinks of", "anchors": ["larreco/MCComp/MCBTAlg.cxx:MCQSum,ProcessSimChannel", "larreco/MCComp/MCMatchAlg.cxx:BuildMap"]}
{"id": "C33", "title": "Best-match cluster is the one with most charge", "statement": "BestClusters(mc)[plane] is the lowest-index cluster on that plane with the largest positive charge from mc, or -1 if none has positive charge; ClusterCorrectness is 1 for it and at most 1 for every cluster of that plane.", "quantifier": "all charge tables", "why_tests_cant": "all inputs and ties", "anchors": ["larreco/MCComp/MCMatchAlg.cxx:BuildMap,ClusterCorrectness,BestClusters"]}
{"id": "C34", "title": "Gaussian elimination solves the linear system", "statement": "SolveEquations returns a vector that satisfies the linear system it builds whenever no pivot vanishes.", "quantifier": "all sizes, all matrices with non-zero pivots", "why_tests_cant": "all sizes and values", "anchors": ["larreco/HitFinder/GaussianEliminationAlg.cxx:GaussianElimination,FillAugmentedMatrix"]}
{"id": "C35", "title": "Erosion and dilation are sliding-window extrema", "statement": "For each tick i at least halfWindow ticks before the end, erosion[i]/dilation[i] are the min/max of the waveform over ticks max(0,i-h+1)..i+h; later ticks repeat the last such value (window); erosion<=dilation everywhere, average and difference are derived from them.", "quantifier": "all waveforms and structuring elements", "why_tests_cant": "incremental extremum caching; all shapes", "anchors": ["larreco/HitFinder/HitFinderTools/WaveformTools_tool.cc:getErosionDilationAverageDifference"]}
{"id": "C36", "title": "Opening and closing are window extrema of erosion and dilation", "statement": "opening/closing are the sliding-window max of erosion / min of dilation, hence opening of the erosion vector dominates it wherever the window contains the tick.", "quantifier": "all inputs", "why_tests_cant": "all shapes", "anchors": ["larreco/HitFinder/HitFinderTools/WaveformTools_tool.cc:getOpeningAndClosing"]}
{"id": "C37", "title": "Smoothing filters keep length, edges and range", "statement": "medianSmooth returns for every interior tick the median of the nBins ticks around it and copies the edges; triangleSmooth is the 1-2-3-2-1 weighted mean and never leaves the range of its inputs; constant waveforms are unchanged.", "quantifier": "all waveforms, all window sizes", "why_tests_cant": "all sizes incl. shorter than window", "anchors": ["larreco/HitFinder/HitFinderTools/WaveformTools_tool.cc:triangleSmooth,medianSmooth"]}
{"id": "C38", "title": "Hit candidates are ordered, in range and above threshold", "statement": "Every candidate found by CandHitStandard satisfies roiStart<=start<=center<=stop<roiEnd, has height equal to the waveform at its centre and above threshold; candidates come in time order and consecutive ones overlap in at most one boundary tick.", "quantifier": "all waveforms and thresholds", "why_tests_cant": "recursive divide and conquer over all waveforms", "anchors": ["larreco/HitFinder/HitFinderTools/CandHitStandard_tool.cc:findHitCandidates"]}
{"id": "C39", "title": "Hit candidate search terminates and misses no isolated pulse", "statement": "findHitCandidates terminates on every waveform; if the waveform (at least 5 ticks) exceeds the threshold anywhere, at least one candidate is produced and one of them sits on the global maximum.", "quantifier": "all waveforms", "why_tests_cant": "termination and completeness", "anchors": ["larreco/HitFinder/HitFinderTools/CandHitStandard_tool.cc:findHitCandidates"]}
{"id": "C40", "title": "Hit grouping preserves the candidate sequence", "statement": "MergeHitCandidates splits the candidate list into non-empty consecutive groups whose concatenation is the input; neighbouring candidates are in the same group iff the gap between them is at most one tick.", "quantifier": "all candidate lists", "why_tests_cant": "all inputs", "anchors": ["larreco/HitFinder/HitFinderTools/CandHitStandard_tool.cc:MergeHitCandidates"]}
{"id": "C41", "title": "Space-point solver conserves charge and keeps it non-negative", "statement": "Iterating a collection wire never changes the total charge of its space charges (which equals the wire's measured charge) and never makes any of them negative; each induction wire's prediction stays equal to the sum of the charges of the space points on it.", "quantifier": "all wire/space-charge configurations, any number of iterations, any alpha", "why_tests_cant": "all configurations and iteration counts", "anchors": ["larreco/SpacePointSolver/Solver.cxx:CollectionWireHit,AddCharge,Iterate,SolvePair"]}
{"id": "C42", "title": "Each pairwise solver step finds the constrained optimum", "statement": "SolvePair returns a transfer within the allowed range that minimises the pair metric over that whole range; it never takes its abort branch.", "quantifier": "all pairs, all coefficients including degenerate (zero) quadratic terms", "why_tests_cant": "all real coefficients incl. degenerate", "anchors": ["larreco/SpacePointSolver/Solver.cxx:SolvePair", "larreco/SpacePointSolver/QuadExpr.cxx"]}
{"id": "C43", "title": "Solver iterations never worsen the global objective", "statement": "Each pair update changes the global Metric by exactly the change of the pair's quadratic expression, so Iterate over collection wires never increases the global Metric.", "quantifier": "all configurations with symmetric neighbour couplings", "why_tests_cant": "all configurations", "anchors": ["larreco/SpacePointSolver/Solver.cxx:Metric,SolvePair,Iterate"]}
{"id": "C44", "title": "Every collection wire is visited once per iteration", "statement": "One call of Iterate visits each collection wire exactly once before handling the orphans.", "quantifier": "all wire counts", "why_tests_cant": "number theoretic; fails only for multiples of a large prime", "anchors": ["larreco/SpacePointSolver/Solver.cxx:Iterate"]}
{"id": "C45", "title": "Doublet search equals the exhaustive search", "statement": "DoubletHelper returns exactly the pairs (a,b) of drift-compatible hits whose wires intersect, plus every intersecting (a,bad channel) pair, no duplicates, in a fixed order.", "quantifier": "all drift-sorted hit lists and geometries", "why_tests_cant": "two-pointer sweep vs. exhaustive search", "anchors": ["larreco/SpacePointSolver/TripletFinder.cxx:DoubletHelper"]}
{"id": "C46", "title": "Triplet search equals the exhaustive search", "statement": "With no limit set, Triplets() returns exactly the combinations of an XU and an XV doublet sharing the same X hit/channel, with at most one bad channel, compatible drift and mutually close crossing points.", "quantifier": "all doublet lists", "why_tests_cant": "merge-join vs. exhaustive search", "anchors": ["larreco/SpacePointSolver/TripletFinder.cxx:Triplets"]}
{"id": "C47", "title": "Triplet limit is respected", "statement": "With maxTriplets=m>0 at most m triplets are returned per TPC.", "quantifier": "all inputs", "why_tests_cant": "boundary counting", "anchors": ["larreco/SpacePointSolver/TripletFinder.cxx:Triplets"]}
{"id": "C48", "title": "Simple clustering returns the connected components of touching hits", "statement": "SimpleClustering::run returns groups that partition the input hits; two hits are in the same group iff they are linked by a chain of touching hits.", "quantifier": "all hit lists", "why_tests_cant": "all geometries; repeated merge sweeps", "anchors": ["larreco/ClusterFinder/TrackShowerSplitter/Segmentation2D/SimpleClustering.cxx:run,merge,hitsTouching"]}
{"id": "C49", "title": "Hit touching is symmetric", "statement": "hitsTouching(a,b)==hitsTouching(b,a), and two distinct hits on the same or adjacent wires touch iff their tick intervals overlap or are adjacent.", "quantifier": "all hits", "why_tests_cant": "includes wire number 0", "anchors": ["larreco/ClusterFinder/TrackShowerSplitter/Segmentation2D/SimpleClustering.cxx:hitsTouching"]}
{"id": "C50", "title": "Simple clustering terminates on every input", "statement": "run() returns for every input, including the empty list.", "quantifier": "all inputs", "why_tests_cant": "termination", "anchors": ["larreco/ClusterFinder/TrackShowerSplitter/Segmentation2D/SimpleClustering.cxx:merge"]}
{"id": "C51", "title": "Track candidate accessors return what was added", "statement": "After any sequence of addHit, append and reset calls, getNHits and getHit(i) (detector, hit, rho, plane) return the hits added since the last reset, in order; GetHitIDs(d) are those of detector d; HitInTrack is membership.", "quantifier": "all call sequences", "why_tests_cant": "all histories including reuse after reset", "anchors": ["larreco/Genfit/GFTrackCand.cxx", "larreco/Genfit/GFTrackCand.h"]}
{"id": "C52", "title": "Polygon area is a geometric invariant", "statement": "Polygon2D::Area is non-negative and unchanged by translating the polygon, by starting from another vertex and by reversing the vertex order; it equals the usual area for triangles.", "quantifier": "all polygons", "why_tests_cant": "all vertex lists", "anchors": ["larreco/RecoAlg/ClusterRecoUtil/Polygon2D.cxx:Area"]}
{"id": "C53", "title": "Linear fit returns the weighted least-squares line", "statement": "LinFit, when it fits (delta != 0, positive errors), returns intercept and slope minimising the weighted sum of squared residuals; exact lines are recovered exactly with zero chi2.", "quantifier": "all point sets", "why_tests_cant": "all inputs", "anchors": ["larreco/RecoAlg/LinFitAlg.cxx:LinFit"]}
{"id": "C54", "title": "Convex hull encloses its points", "statement": "Every vertex of the hull computed by ConvexHull is an input point and no input point lies outside any hull edge.", "quantifier": "all lexicographically sorted point lists", "why_tests_cant": "all geometries", "anchors": ["larreco/RecoAlg/Cluster3DAlgs/ConvexHull/ConvexHull.cxx:getConvexHull"]}
{"id": "C55", "title": "An empty event leaves no stale merge results", "statement": "After an empty event is loaded into CMergeManager and Process() is called, GetClusters() is empty and the book keeper describes zero clusters, whatever event was processed before.", "quantifier": "all earlier histories of the manager, both SetClusters interfaces", "why_tests_cant": "depends on the history of previous events; a test with a fresh manager cannot see stale state", "anchors": ["larreco/RecoAlg/CMTool/CMToolBase/CMManagerBase.cxx: Process, SetClusters", "larreco/RecoAlg/CMTool/CMToolBase/CMergeManager.cxx: Reset"]}
{"id": "C56", "title": "Optional track outputs record every element passed", "statement": "Every fit info and every (space point, hit) pair passed to the track book keeper's addPoint with an optional element ends up, in call order, in the corresponding output the caller initialised; uninitialised outputs stay unavailable and each output can be taken once.", "quantifier": "all call sequences and initialisations", "why_tests_cant": "holds for every interleaving of the overloads and any number of points", "anchors": ["larreco/RecoAlg/TrackCreationBookKeeper.h addPoint", "larreco/TrackFinder/TrackMaker.h OptionalOutputs, OptionalPointElement"]}
{"id":"C57","title":"Hough curves of two points share a cell","statement":"The accumulator is filled so that the curves of any two points in the image have at least one cell in common (so that two aligned hits are seen as aligned).","quantifier":"every image size, angle count, resolution and pair of points","why_tests_cant":"Failures need curves crossing between two angle steps in adjacent cells; sampling points rarely hits them.","anchors":["larreco/RecoAlg/HoughBaseAlg.cxx:HoughTransform::DoAddPointReturnMax"]}
{"id":"C58","title":"AddPointReturnMax reports the best cell just incremented","statement":"AddPointReturnMax returns the value, distance and angle of the largest cell among those just incremented when it exceeds two (lowest angle, then lowest distance on ties), (-1,-1,-1) when none does, and (0,0,0) for a point outside the image.","quantifier":"every history of additions and subtractions and every point","why_tests_cant":"The maximum is tracked through thresholds across angles and blocks; it must be right for every accumulated history.","anchors":["larreco/RecoAlg/HoughBaseAlg.cxx:HoughTransform::AddPointReturnMax","larreco/RecoAlg/HoughBaseAlg.cxx:HoughTransform::DoAddPointReturnMax"]}
{"id":"C59","title":"kd tree search misses no close neighbour","statement":"FindNearestNeighbors, started with a finite distance not below the reference distance, returns every other compatible hit of the tree whose separation from the reference hit is below the reference distance.","quantifier":"every hit list, reference hit, configuration and order of equal keys","why_tests_cant":"Pruning depends on the shape of the tree and the evolving search distance; a missed neighbour only shows for particular geometries.","anchors":["larreco/RecoAlg/Cluster3DAlgs/kdTree.cxx:FindNearestNeighbors","larreco/RecoAlg/Cluster3DAlgs/kdTree.cxx:consistentPairs"]}
{"id":"C60","title":"kd tree FindEntry is membership","statement":"FindEntry with a positive search distance returns true exactly when the hit is one of the hits the tree was built from.","quantifier":"every non-empty hit list, hit, configuration and order of equal keys","why_tests_cant":"Hits sharing the split coordinate may sit on either side of the split; only specific duplicates exercise the far branch.","anchors":["larreco/RecoAlg/Cluster3DAlgs/kdTree.cxx:FindEntry"]}
{"id": "C61", "title": "Cluster efficiency and purity are shares of the right totals", "statement": "ClusterEP(cluster, mc) returns the cluster's charge of mc divided by the charge of mc in all clusters of the same plane, and the cluster's charge of mc divided by the cluster's total charge.", "quantifier": "all simulation inputs, registrations and non-empty clusters", "why_tests_cant": "all inputs", "anchors": ["larreco/MCComp/MCMatchAlg.cxx:ClusterEP,BuildMap"]}
{"id": "C62", "title": "Charge fractions are normalised", "statement": "MCQFrac divides the registered entries by the registered total (adding up to 1 unless it is zero) and the last entry by the overall total.", "quantifier": "all charge vectors", "why_tests_cant": "all inputs", "anchors": ["larreco/MCComp/MCBTAlg.cxx:MCQFrac"]}
{"id": "C63", "title": "Shower correctness names the object that made the shower", "statement": "ShowerCorrectness(clusters) returns the MC object with the largest product of cluster correctness, and this object contributes charge to the clusters.", "quantifier": "all clusters, registrations and simulation inputs", "why_tests_cant": "only particular registrations show it", "anchors": ["larreco/MCComp/MCMatchAlg.cxx:ShowerCorrectness"]}
{"id": "C64", "title": "Gaussian lookup table answers every distance", "statement": "Constructing GaussianEliminationAlg with accepted (non-negative) parameters returns, and GetDistance then yields, for every distance within the maximum, the linear interpolation between two existing table entries, and zero beyond it.", "quantifier": "all step sizes, maxima and distances", "why_tests_cant": "boundary of the table and degenerate steps", "anchors": ["larreco/HitFinder/GaussianEliminationAlg.cxx:FillDistanceLookupTable,GetDistance"]}
{"id": "C65", "title": "Opening and closing bracket the waveform", "statement": "The opening of a waveform never exceeds it and the closing is never below it.", "quantifier": "all waveforms and structuring elements", "why_tests_cant": "window alignment matters only at edges of pulses", "anchors": ["larreco/HitFinder/HitFinderTools/WaveformTools_tool.cc:getErosionDilationAverageDifference,getOpeningAndClosing"]}
{"id": "C66", "title": "First derivative depends only on the waveform", "statement": "firstDerivative writes a vector of the same length with the central difference at inner ticks and zero at both ends, whatever the output vector held before.", "quantifier": "all waveforms and all previous contents of the output", "why_tests_cant": "history of the reused output vector", "anchors": ["larreco/HitFinder/HitFinderTools/WaveformTools_tool.cc:firstDerivative"]}
{"id": "C67", "title": "Truncated mean and rms describe the populated core", "statement": "getTruncatedMeanRMS returns as mean the average of the quarter-rounded samples in the well populated bins around a most populated bin, as nTrunc their number (1..n), the mean is within 4 units of that bin, and the truncated rms never exceeds the full rms.", "quantifier": "all non-empty waveforms", "why_tests_cant": "all value distributions", "anchors": ["larreco/HitFinder/HitFinderTools/WaveformTools_tool.cc:getTruncatedMeanRMS"]}
{"id": "C68", "title": "Bipolar peak search stays in range and returns ordered peaks", "statement": "findPeaks reads only the samples it is given, terminates, and returns peaks in time order without overlap, each containing a sample above threshold followed by one below minus threshold.", "quantifier": "all waveforms and thresholds", "why_tests_cant": "reads past the end are silent; recursion over all waveforms", "anchors": ["larreco/HitFinder/HitFinderTools/WaveformTools_tool.cc:findPeaks"]}
{"id": "C69", "title": "Quadratic-expression arithmetic is exact", "statement": "Evaluating a sum, difference or product of QuadExpr objects gives the sum, difference or product of the evaluations, and multiplication aborts exactly when the product cannot be written as a quadratic expression.", "quantifier": "all coefficients and all arguments", "why_tests_cant": "all coefficient combinations", "anchors": ["larreco/SpacePointSolver/QuadExpr.cxx:operator*,operator+,operator-,Eval"]}
{"id": "C70", "title": "A triplet lies at the mean drift position of its good hits", "statement": "The drift coordinate of every triplet returned by Triplets and TripletsTwoView is the mean drift coordinate of the good hits it is made of; bad channels do not contribute.", "quantifier": "all hit lists, bad channels and geometries", "why_tests_cant": "all combinations of good hits and bad channels", "anchors": ["larreco/SpacePointSolver/TripletFinder.cxx:Triplets,TripletsTwoView"]}
{"id": "C71", "title": "Triplets over a bad X channel do not depend on unrelated X hits", "statement": "A combination of one U hit, one V hit and a bad X channel that satisfies all the triplet conditions is returned whatever other hits there are.", "quantifier": "all hit lists", "why_tests_cant": "all inputs incl. TPCs without any X hit", "anchors": ["larreco/SpacePointSolver/TripletFinder.cxx:Triplets"]}
{"id": "C72", "title": "Appending a track candidate to itself", "statement": "append(rhs) finishes and adds the hits rhs had at the call, also when rhs is the candidate itself (its hits are then doubled).", "quantifier": "all candidates and all call histories", "why_tests_cant": "a non-terminating call for every nonempty candidate; a test can only time out", "anchors": ["larreco/Genfit/GFTrackCand.cxx: append"]}
{"id": "C73", "title": "Hull area is the area of the hull polygon", "statement": "getConvexHullArea is non-negative and is the shoelace area of the hull polygon returned by getConvexHull.", "quantifier": "all nonempty lexicographically sorted point lists", "why_tests_cant": "all geometries incl. collinear and repeated points", "anchors": ["larreco/RecoAlg/Cluster3DAlgs/ConvexHull/ConvexHull.cxx:Area"]}
{"id": "C74", "title": "The nearest hull edge is the nearest one", "statement": "findNearestEdge returns the hull edge closest to the point and its distance, negative exactly for points outside the hull; findNearestDistance is that distance.", "quantifier": "all hulls and all points", "why_tests_cant": "all geometries; the omission concerns one edge per hull", "anchors": ["larreco/RecoAlg/Cluster3DAlgs/ConvexHull/ConvexHull.cxx:findNearestEdge", "larreco/RecoAlg/Cluster3DAlgs/ConvexHull/ConvexHull.cxx:findNearestDistance"]}
{"id": "C75", "title": "Extreme points are the two furthest hull points", "statement": "getExtremePoints returns two hull points whose distance is the largest among all pairs of input points.", "quantifier": "all hulls", "why_tests_cant": "all geometries", "anchors": ["larreco/RecoAlg/Cluster3DAlgs/ConvexHull/ConvexHull.cxx:getExtremePoints"]}
{"id": "C76", "title": "The order used to sort points before the hull is a strict weak order", "statement": "The comparison callers use to sort the points for ConvexHull is a strict weak ordering that agrees with the lexicographic order the hull needs, so that the hull of the sorted points encloses them.", "quantifier": "all point sets", "why_tests_cant": "an intransitive comparison only shows on triples of points with nearly equal coordinates", "anchors": ["larreco/RecoAlg/Cluster3DAlgs/ConvexHullPathFinder_tool.cc", "larreco/RecoAlg/Cluster3DAlgs/VoronoiPathFinder_tool.cc", "larreco/RecoAlg/Cluster3DAlgs/ConvexHull/ConvexHull.cxx"]}
{"id": "C77", "title": "The linear fit finishes and normalises its chi2", "statement": "LinFit returns for every input, and the chi2 it returns is per degree of freedom of the points fitted.", "quantifier": "all input vectors", "why_tests_cant": "non-termination from 65536 points on; lengths of vectors unbounded", "anchors": ["larreco/RecoAlg/LinFitAlg.cxx:LinFit"]}
{"id": "C78", "title": "Perimeter is the length of the boundary", "statement": "Polygon2D::Perimeter returns the sum of the lengths of all edges of the closed polygon.", "quantifier": "all polygons", "why_tests_cant": "all vertex lists", "anchors": ["larreco/RecoAlg/ClusterRecoUtil/Polygon2D.cxx:Perimeter"]}
{"id": "C79", "title": "PolyOverlap decides whether two polygons overlap", "statement": "PolyOverlap is true if the two (convex) polygons have a common point and false if they have none.", "quantifier": "all pairs of convex polygons", "why_tests_cant": "all geometries, incl. vertical edges", "anchors": ["larreco/RecoAlg/ClusterRecoUtil/Polygon2D.cxx:PolyOverlap", "larreco/RecoAlg/ClusterRecoUtil/Polygon2D.cxx:Overlap", "larreco/RecoAlg/ClusterRecoUtil/Polygon2D.cxx:Project", "larreco/RecoAlg/ClusterRecoUtil/Polygon2D.cxx:FindSlope"]}
{"id": "C80", "title": "Crossing edges and their crossing point", "statement": "SegmentOverlap is true only for segments with a common point, and for all segments in general position that have one; GetIntersection returns that common point.", "quantifier": "all pairs of segments", "why_tests_cant": "all geometries", "anchors": ["larreco/RecoAlg/ClusterRecoUtil/Polygon2D.cxx:SegmentOverlap", "larreco/RecoAlg/ClusterRecoUtil/Polygon2D.cxx:GetIntersection", "larreco/RecoAlg/ClusterRecoUtil/Polygon2D.cxx:Clockwise"]}
{"id": "C81", "title": "Untangling a polygon", "statement": "UntanglePolygon returns for every polygon; the vertices are the same in another order and no two non-adjacent edges of the polygon cross.", "quantifier": "all polygons", "why_tests_cant": "termination for all inputs; a non-terminating input is rare", "anchors": ["larreco/RecoAlg/ClusterRecoUtil/Polygon2D.cxx:UntanglePolygon"]}
{"id": "C82", "title": "PointInside decides whether a point is in the polygon", "statement": "PointInside is true for every point inside the polygon and false for every point outside (even-odd rule).", "quantifier": "all polygons and points not on an edge", "why_tests_cant": "all geometries", "anchors": ["larreco/RecoAlg/ClusterRecoUtil/Polygon2D.cxx:PointInside", "larreco/RecoAlg/ClusterRecoUtil/Polygon2D.cxx:Contained"]}
{"id": "C83", "title": "A new site splits the arc above it", "statement": "Whatever the breakpoint comparisons answer, inserting a site into the beach line replaces exactly one arc by three (the arc's site, the new site, the arc's site), returns the new arc, and leaves one binary tree with consistent parent/child pointers whose left-to-right order is the predecessor/successor chain; when the breakpoints are in order, the split arc is the one over the site.", "quantifier": "all beach lines, all sites, all comparison outcomes (all roundings)", "why_tests_cant": "pointer structure after arbitrary insertion and rotation histories", "anchors": ["larreco/RecoAlg/Cluster3DAlgs/Voronoi/BeachLine.cxx:insertNewLeaf", "larreco/RecoAlg/Cluster3DAlgs/Voronoi/BeachLine.cxx:findBestLeaf"]}
{"id": "C84", "title": "Removing an arc", "statement": "Removing an arc with a neighbour on each side and a circle event takes out exactly that arc, keeps one tree and one chain, returns the breakpoint between its two neighbours, and invalidates exactly the circle events of these neighbours.", "quantifier": "all beach lines and inner arcs", "why_tests_cant": "pointer structure after arbitrary histories", "anchors": ["larreco/RecoAlg/Cluster3DAlgs/Voronoi/BeachLine.cxx:removeLeaf"]}
{"id": "C85", "title": "Beach line counters", "statement": "countLeaves and traverseBeach return the number of arcs, countNodes twice that number minus one.", "quantifier": "all beach lines", "why_tests_cant": "all reachable trees", "anchors": ["larreco/RecoAlg/Cluster3DAlgs/Voronoi/BeachLine.cxx:countLeaves", "larreco/RecoAlg/Cluster3DAlgs/Voronoi/BeachLine.cxx:countNodes", "larreco/RecoAlg/Cluster3DAlgs/Voronoi/BeachLine.cxx:traverseBeach"]}
{"id": "C86", "title": "Rebalancing", "statement": "After every insertion the two branches of every node of the beach line differ by at most two levels; rotations never change the order of the arcs.", "quantifier": "all insertion histories", "why_tests_cant": "all tree shapes", "anchors": ["larreco/RecoAlg/Cluster3DAlgs/Voronoi/BeachLine.cxx:rebalance", "larreco/RecoAlg/Cluster3DAlgs/Voronoi/BeachLine.cxx:rotateWithLeftChild", "larreco/RecoAlg/Cluster3DAlgs/Voronoi/BeachLine.cxx:rotateWithRightChild"]}
{"id": "C87", "title": "The Voronoi sweep ends and is safe", "statement": "buildVoronoiDiagram's event loop never dereferences a null pointer, ends after at most seven rounds per input point, and at its end there is exactly one face per point, with the numbers of half edges and remaining arcs fixed by the numbers of points and vertices.", "quantifier": "all non-empty point lists and all orders of events (coordinates are an arbitrary oracle)", "why_tests_cant": "all event histories", "anchors": ["larreco/RecoAlg/Cluster3DAlgs/Voronoi/Voronoi.cxx:buildVoronoiDiagram", "larreco/RecoAlg/Cluster3DAlgs/Voronoi/Voronoi.cxx:handleSiteEvents", "larreco/RecoAlg/Cluster3DAlgs/Voronoi/Voronoi.cxx:handleCircleEvents"]}
{"id": "C88", "title": "The doubly connected edge list is consistent", "statement": "At every moment of the sweep twins are mutual, next and last are inverse, consecutive half edges bound the same face and meet in a vertex, every half edge has a face, every vertex and every face knows one of its half edges.", "quantifier": "all reachable states of the sweep", "why_tests_cant": "invariant over all event histories", "anchors": ["larreco/RecoAlg/Cluster3DAlgs/Voronoi/Voronoi.cxx:handleSiteEvents", "larreco/RecoAlg/Cluster3DAlgs/Voronoi/Voronoi.cxx:handleCircleEvents", "larreco/RecoAlg/Cluster3DAlgs/Voronoi/DCEL.h:HalfEdge"]}
{"id": "C89", "title": "Walking around a face ends", "statement": "Counting the half edges of a face forwards, and backwards if it is open, ends for every face of a diagram of two or more points, visits each half edge of the face once, and reports the face open exactly if it lies on the frontier.", "quantifier": "all faces of all reachable diagrams", "why_tests_cant": "all diagrams", "anchors": ["larreco/RecoAlg/Cluster3DAlgs/Voronoi/Voronoi.cxx:buildVoronoiDiagram"]}
{"id": "C90", "title": "Breakpoints", "statement": "The point computeBreak returns lies on both parabolas, and the first arc is the lower one before it and the second after it; a new site is sent left exactly if it is before the breakpoint.", "quantifier": "all pairs of sites ahead of the sweep line whose coordinates are equal or not within the tolerance", "why_tests_cant": "all real coordinates", "anchors": ["larreco/RecoAlg/Cluster3DAlgs/Voronoi/EventUtilities.cxx:computeBreak", "larreco/RecoAlg/Cluster3DAlgs/Voronoi/EventUtilities.cxx:computeArcVal", "larreco/RecoAlg/Cluster3DAlgs/Voronoi/EventUtilities.cxx:newSiteToLeft"]}
{"id": "C91", "title": "Circle centres", "statement": "Each of the three circle centre functions returns a centre and a radius of a circle through the three points whenever there is one; a circle event is created exactly for counter-clockwise triples whose circle reaches past the sweep line, at the end of the circle.", "quantifier": "all triples of points", "why_tests_cant": "all real coordinates", "anchors": ["larreco/RecoAlg/Cluster3DAlgs/Voronoi/Voronoi.cxx:computeCircleCenter", "larreco/RecoAlg/Cluster3DAlgs/Voronoi/Voronoi.cxx:computeCircleCenter2", "larreco/RecoAlg/Cluster3DAlgs/Voronoi/Voronoi.cxx:computeCircleCenter3", "larreco/RecoAlg/Cluster3DAlgs/Voronoi/Voronoi.cxx:makeCircleEvent"]}
{"id": "C92", "title": "Small inputs", "statement": "Building a diagram of any number of points, including one and two, ends without an invalid access; the bounding box is the smallest box around the vertices.", "quantifier": "all point counts", "why_tests_cant": "boundary inputs of every size", "anchors": ["larreco/RecoAlg/Cluster3DAlgs/Voronoi/Voronoi.cxx:buildVoronoiDiagram", "larreco/RecoAlg/Cluster3DAlgs/Voronoi/Voronoi.cxx:findBoundingBox"]}
{"id": "C93", "title": "Ending the infinite edges", "statement": "After terminateInfiniteEdges every edge has two end points or none, faces, twins and order of edges are unchanged, and no removed vertex is used again.", "quantifier": "all reachable final states of the sweep", "why_tests_cant": "all diagrams", "anchors": ["larreco/RecoAlg/Cluster3DAlgs/Voronoi/Voronoi.cxx:terminateInfiniteEdges", "larreco/RecoAlg/Cluster3DAlgs/Voronoi/Voronoi.cxx:mergeDegenerateVertices"]}
{"id": "C94", "title": "Vertices outside the hull", "statement": "A vertex is kept exactly if it is strictly to the left of every edge of the convex hull of the current diagram, for every diagram an object builds.", "quantifier": "all final states, all vertices, repeated builds", "why_tests_cant": "all hulls and points", "anchors": ["larreco/RecoAlg/Cluster3DAlgs/Voronoi/Voronoi.cxx:isInsideConvexHull", "larreco/RecoAlg/Cluster3DAlgs/Voronoi/Voronoi.cxx:getConvexHull"]}
{"id": "C95", "title": "Areas", "statement": "The area stored for a closed face is the area of the polygon of its vertices, Area returns the area of the polygon of the given points, and both are defined for every diagram.", "quantifier": "all polygons", "why_tests_cant": "all real coordinates, all lengths", "anchors": ["larreco/RecoAlg/Cluster3DAlgs/Voronoi/Voronoi.cxx:ComputeFaceArea", "larreco/RecoAlg/Cluster3DAlgs/Voronoi/Voronoi.cxx:Area", "larreco/RecoAlg/Cluster3DAlgs/Voronoi/Voronoi.cxx:VoronoiDiagram"]}
{"id": "C96", "title": "Translation of a boost diagram", "statement": "buildVoronoiDiagramBoost makes one half edge per boost edge, one vertex per boost vertex and one face per cell, with the twins, targets, next and previous edges and faces of the boost diagram.", "quantifier": "all consistent boost diagrams", "why_tests_cant": "all diagrams and all orders of their edges", "anchors": ["larreco/RecoAlg/Cluster3DAlgs/Voronoi/Voronoi.cxx:buildVoronoiDiagramBoost", "larreco/RecoAlg/Cluster3DAlgs/Voronoi/Voronoi.cxx:boostTranslation"]}
{"id": "C97", "title": "Spanning-tree clustering partitions the hits", "statement": "The minimum spanning tree clustering always terminates, within one round per hit; the clusters it appends to the list contain every given hit that was not already attached exactly once and nothing else, earlier clusters are untouched, and if the neighbour search is symmetric two hits are in the same cluster exactly when they are joined by a chain of neighbours.", "quantifier": "every list of distinct hits, every neighbour search closed on them, every edge weight, every state of the attached flags and every earlier list of clusters", "why_tests_cant": "Termination and exact partition for arbitrary neighbour graphs, including asymmetric ones and ties in the weights, cannot be enumerated.", "anchors": ["larreco/RecoAlg/Cluster3DAlgs/MinSpanTreeAlg_tool.cc:RunPrimsAlgorithm", "larreco/RecoAlg/Cluster3DAlgs/PathFinding/MSTPathFinder_tool.cc:RunPrimsAlgorithm"]}
{"id": "C98", "title": "The edge map of each cluster is a tree", "statement": "For every cluster produced by the spanning-tree clustering the edge map has an entry in both directions for each edge, joins only hits of the cluster along edges offered by the neighbour search, connects all hits of the cluster, and has exactly one edge less than there are hits.", "quantifier": "every list of hits, neighbour search, weight function and initial state", "why_tests_cant": "A structural invariant of the loop over all graphs and all orders of growth.", "anchors": ["larreco/RecoAlg/Cluster3DAlgs/MinSpanTreeAlg_tool.cc:RunPrimsAlgorithm", "larreco/RecoAlg/Cluster3DAlgs/PathFinding/MSTPathFinder_tool.cc:RunPrimsAlgorithm"]}
{"id": "C99", "title": "The tree is of minimum weight", "statement": "If the neighbour search is symmetric, no other set of offered edges that connects the hits of a cluster (with as many edges, or with any number when weights are not negative) has a smaller sum of weights than the tree stored in the edge map of the cluster.", "quantifier": "every list of hits, symmetric neighbour search, weight function and competing set of edges", "why_tests_cant": "Optimality quantifies over all competing spanning sets of all graphs; a test compares with a handful.", "anchors": ["larreco/RecoAlg/Cluster3DAlgs/MinSpanTreeAlg_tool.cc:RunPrimsAlgorithm", "larreco/RecoAlg/Cluster3DAlgs/PathFinding/MSTPathFinder_tool.cc:RunPrimsAlgorithm"]}
{"id": "C100", "title": "The best path of a cluster is the path between its end points", "statement": "In every spanning-tree cluster of more than two hits there are at least two isolated hits, and FindBestPathInCluster terminates and leaves in the best-hit list exactly the hits of the only path from the first to the last isolated hit in the sorted order, start and stop included and none twice, and in the best-edge list the edges between them in order (on empty lists; old contents would end up inside the path, before its last hit).", "quantifier": "every list of hits, neighbour search, weights, every order the sort may produce and every previous contents of the lists", "why_tests_cant": "Recursion over all trees and all choices of end points; tests see a few shapes.", "anchors": ["larreco/RecoAlg/Cluster3DAlgs/MinSpanTreeAlg_tool.cc:FindBestPathInCluster", "larreco/RecoAlg/Cluster3DAlgs/MinSpanTreeAlg_tool.cc:LeastCostPath", "larreco/RecoAlg/Cluster3DAlgs/PathFinding/MSTPathFinder_tool.cc:LeastCostPath"]}
{"id": "C101", "title": "The longest branch has the best quality", "statement": "The path search that replaces the hits of a cluster terminates on every spanning-tree cluster of at least two hits, replaces the hits by those of a path between two isolated hits, none twice, and no other path between isolated hits has a better quality (sum of the reciprocal lengths with the lower cuts, the weight deciding for the last edge).", "quantifier": "every list of hits, neighbour search, weights and distances", "why_tests_cant": "Optimality over all pairs of end points in all trees.", "anchors": ["larreco/RecoAlg/Cluster3DAlgs/MinSpanTreeAlg_tool.cc:DepthFirstSearch", "larreco/RecoAlg/Cluster3DAlgs/MinSpanTreeAlg_tool.cc:FindBestPathInCluster", "larreco/RecoAlg/Cluster3DAlgs/PathFinding/MSTPathFinder_tool.cc:DepthFirstSearch"]}
{"id": "C102", "title": "Queue based density clustering finds exactly the density-connected groups", "statement": "For every neighbourhood search that stays within the hits, the density clustering of three dimensional hits and the two nearest-neighbour variants of the two dimensional one end; no hit is in two clusters; every cluster is seeded by a core hit and every hit of it is reached from the seed through core hits; a hit is left out exactly when it is neither a core hit nor a neighbour of one; with a symmetric neighbourhood two core hits share a cluster exactly when a chain of core hits links them. (The noise mark is not removed from border hits that were looked at before their cluster.)", "quantifier": "every list of hits, every neighbourhood relation, every minimum number of neighbours", "why_tests_cant": "Reachability over arbitrary graphs and arbitrary processing orders.", "anchors": ["larreco/RecoAlg/Cluster3DAlgs/DBScanAlg_tool.cc:expandCluster", "larreco/RecoAlg/Cluster3DAlgs/DBScanAlg_tool.cc:Cluster3DHits", "larreco/RecoAlg/DBScanAlg.cxx:run_FN_cluster", "larreco/RecoAlg/DBScanAlg.cxx:run_FN_naive_cluster"]}
{"id": "C103", "title": "Set based density clustering finds exactly the density-connected groups", "statement": "With a symmetric and reflexive neighbourhood search that stays within the hits, the set based density clustering of two dimensional hits ends; every cluster id it writes is in range; every cluster is a list of distinct hits each of which is a neighbour of a core hit of the same cluster; no hit is in two clusters; a hit is noise exactly when it is in no cluster, exactly when none of its neighbours is a core hit; two core hits share a cluster exactly when a chain of core hits links them. With a minimum of k+1 (the hit itself counts) it groups the hits as the queue based variant does with a minimum of k. Without symmetry a cluster can be emptied by a later one.", "quantifier": "every number of hits, every symmetric reflexive neighbourhood, every minimum number of points", "why_tests_cant": "Reachability over arbitrary graphs; agreement of two different algorithms on all inputs.", "anchors": ["larreco/RecoAlg/DBScanAlg.cxx:run_dbscan_cluster", "larreco/RecoAlg/DBScanAlg.cxx:ExpandCluster"]}
{"id": "C104", "title": "Tree neighbour search agrees with the pairwise one", "statement": "The pairwise neighbour test of the two dimensional density clustering is symmetric. The tree search returns only hits that pass its own leaf test, and returns all of them when the query box is not to the right of any box of the tree; on detectors without dead wires its leaf test equals the pairwise one. (Not in general: the table of dead wires is always read beyond its end and dead wires are never bridged, and the pruning of boxes uses the wire edge in the time dimension, so neighbours are lost and the relation found is not symmetric.)", "quantifier": "every tree of boxes, every query, all widths and limits", "why_tests_cant": "All tree shapes and all geometries.", "anchors": ["larreco/RecoAlg/DBScanAlg.cxx:AcceptFindNeighbors", "larreco/RecoAlg/DBScanAlg.cxx:findNeighbors", "larreco/RecoAlg/DBScanAlg.cxx:RegionQuery", "larreco/RecoAlg/DBScanAlg.cxx:getSimilarity"]}
{"id": "C105", "title": "Every three dimensional cluster kept brings hits of its own", "statement": "The cluster builder goes through the clusters from the largest to the smallest, equal sizes in input order; drops the ones below the size limit; and keeps a cluster exactly when, against the clusters kept before, it has a new hit in enough planes with a large enough share. Each kept cluster has a two dimensional hit no earlier kept cluster has, so there are no more clusters than hits; when the clusters share no two dimensional hits all large enough clusters are kept.", "quantifier": "every list of clusters of three dimensional hits, every size limit", "why_tests_cant": "Depends on the whole history of kept clusters.", "anchors": ["larreco/RecoAlg/Cluster3DAlgs/ClusterParamsBuilder_tool.cc:BuildClusterInfo", "larreco/RecoAlg/Cluster3DAlgs/ClusterParamsBuilder_tool.cc:keepThisCluster", "larreco/RecoAlg/Cluster3DAlgs/ClusterParamsBuilder_tool.cc:storeThisCluster"]}
{"id": "C106", "title": "Per plane parameters describe the hits of the plane", "statement": "The cluster parameters of a plane hold exactly the cluster's two dimensional hits of that plane; their charge is the total; start wire and end wire are the least and the greatest wire, with time and width of a hit on that wire; they do not depend on the order of the hits except for the times when several hits share the extreme wire. (The end time stays unset for a cluster on wire 0 only.)", "quantifier": "every list of two dimensional hits in every order", "why_tests_cant": "All orders of hits, which come from pointer hashes.", "anchors": ["larreco/RecoAlg/Cluster3DAlgs/Cluster3D.cxx:RecobClusterParameters::UpdateParameters"]}
{"id": "C107", "title": "The particle hierarchy written by the 3D clustering is consistent", "statement": "In the event written by the three dimensional clustering every particle's own number is its position; a daughter names its parent and the parent, a primary particle, lists exactly its daughters, which have none themselves; there is one primary particle per good cluster with as many daughters as its tree of daughters has ends; each particle has two principal axes of its own; clusters are numbered by position and each belongs to exactly one particle without daughters.", "quantifier": "every list of clusters with arbitrary trees of daughters", "why_tests_cant": "Arbitrarily deep and wide trees; the parent's number is computed before its daughters are stored.", "anchors": ["larreco/ClusterFinder/Cluster3D_module.cc:ProduceArtClusters", "larreco/ClusterFinder/Cluster3D_module.cc:FindAndStoreDaughters", "larreco/ClusterFinder/Cluster3D_module.cc:countUltimateDaughters", "larreco/ClusterFinder/Cluster3D_module.cc:ConvertToArtOutput"]}
{"id": "C108", "title": "Every three dimensional hit becomes a space point", "statement": "Space points are numbered by position; a hit that is not rejected has one space point for each good cluster it belongs to (itself or through its daughters), and a hit without one gets a space point outside of clusters; with disjoint clusters each hit has exactly one. A space point belongs to at most one particle, of a cluster without daughters that has the hit; path points belong to exactly one. (A best hit that is not among its cluster's hits loses its space point.)", "quantifier": "every list of hits and of clusters with arbitrary trees of daughters", "why_tests_cant": "Depends on marks left on hits by all earlier clusters.", "anchors": ["larreco/ClusterFinder/Cluster3D_module.cc:MakeAndSaveSpacePoints", "larreco/ClusterFinder/Cluster3D_module.cc:ProduceArtClusters", "larreco/ClusterFinder/Cluster3D_module.cc:ConvertToArtOutput"]}
{"id": "C109", "title": "Edges join the space points of their hits", "statement": "Edges and path edges are numbered by position, belong to exactly one particle, and join the space points (path points) of the two hits of an edge of a cluster; every edge between hits of its cluster that are not rejected is written. Of two twin half edges of the Voronoi diagram between known vertices exactly one is written, between the points of these vertices. (The numbers of the edges of the diagram are all the size of another collection.)", "quantifier": "every list of clusters and every diagram", "why_tests_cant": "All sharing patterns of hits between clusters and all orders of half edges.", "anchors": ["larreco/ClusterFinder/Cluster3D_module.cc:ProduceArtClusters", "larreco/ClusterFinder/Cluster3D_module.cc:ConvertToArtOutput", "larreco/ClusterFinder/Cluster3D_module.cc:MakeAndSaveVertexPoints"]}
{"id": "C110", "title": "Parent and daughter numbers of track candidates describe the tree", "statement": "After setParentDaughterConnections on a collection of distinct tracks whose nodes and segments form trees, candidate i is the parent of candidate j, and j is among the daughters of i, exactly when track j starts at a node of track i other than its first; every daughter appears once; tracks that start at a node no track leads to get a common parent entry beyond the candidates, one per such node, which lists exactly these tracks; the parent number is -1 exactly when the parent track is not in the collection. Candidates without a track disappear, all other members stay.", "quantifier": "every collection and every forest of tracks of any size and shape", "why_tests_cant": "trees have unbounded size and shape, and collections may contain any subset of a tree", "anchors": ["larreco/RecoAlg/PMAlg/PmaTrkCandidate.cxx: TrkCandidateColl::setParentDaughterConnections, getCandidateIndex"]}
{"id": "C111", "title": "Tree identifiers tell trees apart", "statement": "setTreeIds on a collection that holds every track of its trees gives two candidates the same identifier exactly when their tracks are joined by a chain of tracks sharing nodes; identifiers run from 0 to the returned number minus 1, each one used; nothing else changes. (With a branch missing from the collection, identifiers are skipped and tracks are left without one.)", "quantifier": "every collection and every forest", "why_tests_cant": "holds for all tree shapes, orders of the candidates and previous identifiers", "anchors": ["larreco/RecoAlg/PMAlg/PmaTrkCandidate.cxx: TrkCandidateColl::setTreeIds, setTreeId", "larreco/RecoAlg/PMAlg/PmaTrack3D.cxx: Track3D::GetRoot"]}
{"id": "C112", "title": "Tree queries of a track end and are complete", "statement": "GetRoot ends and yields the only track without a parent above a track. GetBranches of a track without a parent lists every track of its tree once; IsAttachedTo between two such tracks is true exactly when they are in one tree. (For a daughter track IsAttachedTo throws the loop exception in a loop-free tree.)", "quantifier": "every forest and every track of it", "why_tests_cant": "termination and completeness over all tree shapes", "anchors": ["larreco/RecoAlg/PMAlg/PmaTrack3D.cxx: Track3D::GetRoot, GetBranches, IsAttachedTo"]}
{"id": "C113", "title": "The nearest track of a tree", "statement": "GetNearestTrkInTree for a point in space, asked at a track without a parent, returns a track of the tree at least as near as every track of the tree, and its distance. For a point of a view the same holds when the tree is a single track. (With branches the view version compares a distance with a squared distance and takes the root twice: it returns wrong tracks and distances.)", "quantifier": "every forest, track and distance function", "why_tests_cant": "all tree shapes and all distances", "anchors": ["larreco/RecoAlg/PMAlg/PmaTrack3D.cxx: Track3D::GetNearestTrkInTree"]}
{"id": "C114", "title": "Merging track candidates", "statement": "TrkCandidateColl::merge(i1,i2) of a track that starts its own tree into an earlier candidate of another tree: nodes and hits of the second follow those of the first, its clusters are appended, its entry disappears, all others keep everything else, tracks still form trees, and tree identifiers that told trees apart still do. A track that starts at a node of another track is refused with an exception. (For i1 > i2 the identifier refresh uses the number from before the erase: it refreshes the wrong tree or reads past the end.)", "quantifier": "every collection, forest and pair of candidates", "why_tests_cant": "all collection orders and tree shapes", "anchors": ["larreco/RecoAlg/PMAlg/PmaTrkCandidate.cxx: TrkCandidateColl::merge", "larreco/RecoAlg/PMAlg/PmaTrack3D.cxx: Track3D::ExtendWith"]}
{"id": "C115", "title": "Flipping a track of a tree", "statement": "CanFlip ends and is true exactly when the track and every track above it start at the last node of their parents. Flip of such a track reverses exactly this track and the tracks above it, keeps all hits and the membership of trees, leaves a forest, and makes the track the first of its tree. (Flip does not ask CanFlip; called on a branch from the middle of another track it cuts that track.)", "quantifier": "every forest and every track", "why_tests_cant": "depth and shape of trees are unbounded", "anchors": ["larreco/RecoAlg/PMAlg/PmaTrack3D.cxx: Track3D::CanFlip, Flip, InternalFlip"]}
{"id": "C116", "title": "Inserting and removing nodes keeps the trees", "statement": "InsertNode at a position that is not the first, or at the first of a track without a parent, puts the new node at exactly this position; RemoveNode on a track of three or more nodes removes exactly this node; all other tracks and all hits stay and the tracks still form trees. (A node inserted before the first node of a branch cuts its parent track; RemoveNode on a two-node track reports success and leaves a track with no segment.)", "quantifier": "every forest, track, position and new node", "why_tests_cant": "all tree shapes and positions", "anchors": ["larreco/RecoAlg/PMAlg/PmaTrack3D.cxx: Track3D::InsertNode, RemoveNode, RebuildSegments"]}
{"id": "C117", "title": "Attaching a track to a node", "statement": "Track3D::AttachTo ends without an exception on a forest. On failure nothing has changed. On success the track starts at the node, the tree of the track and the tree of the node are one tree, no other tracks were joined or separated, hits stay, and the tracks form trees. A node of the own tree and a node no track uses are refused.", "quantifier": "every forest, track, node, assignment of TPCs and distances", "why_tests_cant": "all tree shapes, including flips and re-rooting of the attached tree", "anchors": ["larreco/RecoAlg/PMAlg/PmaTrack3D.cxx: Track3D::AttachTo, AttachToSameTPC, AttachToOtherTPC"]}
{"id": "C118", "title": "Storing a trajectory", "statement": "A trajectory under construction (its hits unowned, each used once and at points with charge) is stored by StoreTraj exactly when every point has at most 16 hits, two points have charge and fewer than 65535 trajectories exist. Then it is last in the list with the next number, InTraj of exactly its used hits is that number, other hits keep their owner. Otherwise the list stays. UseHit and InTraj agree in all cases.", "quantifier": "every slice with agreeing tables, every trajectory under construction", "why_tests_cant": "histories of stores, kills, splits and merges are unbounded", "anchors": ["larreco/RecoAlg/TCAlg/Utils.cxx: StoreTraj, SetEndPoints, ReleaseHits"]}
{"id": "C119", "title": "Killing and restoring a trajectory", "statement": "MakeTrajectoryObsolete frees exactly the hits of the trajectory and marks it; RestoreObsoleteTrajectory gives it back the hits that are still free; killing and restoring at once gives the slice back. The two tables of ownership agree after a kill, and after a restore when all its hits are still free.", "quantifier": "every slice with agreeing tables, every trajectory", "why_tests_cant": "any history may lie between the kill and the restore", "anchors": ["larreco/RecoAlg/TCAlg/Utils.cxx: MakeTrajectoryObsolete, RestoreObsoleteTrajectory"]}
{"id": "C120", "title": "Splitting a trajectory", "statement": "SplitTraj succeeds exactly when both parts have three points with charge; the first part keeps the number and the hits up to the given point, a new last trajectory has exactly the remaining ones; no hit is lost, no other trajectory or hit changes; with a vertex, the parts meet there and keep the vertices of their other ends. Failure changes nothing but the code of a muon.", "quantifier": "every slice with agreeing tables, trajectory, point and vertex", "why_tests_cant": "all lengths and positions", "anchors": ["larreco/RecoAlg/TCAlg/Utils.cxx: SplitTraj"]}
{"id": "C121", "title": "Merging two trajectories", "statement": "MergeAndStore keeps the tables of ownership in agreement. It either refuses and no trajectory or hit changes, or a new last trajectory has all hits of one of the two and part of the other's, each once; both originals are killed, hits left out are free, all other trajectories and hits stay.", "quantifier": "every slice with agreeing tables, every two stored trajectories with at most 16 hits per point, every geometry and vertex", "why_tests_cant": "all shapes, orders and overlaps of two trajectories", "anchors": ["larreco/RecoAlg/TCAlg/Utils.cxx: MergeAndStore, TrajPointTrajDOCA, HasDuplicateHits, GetPFPIndex", "larreco/RecoAlg/TCAlg/TCVertex.cxx: MakeVertexObsolete"]}
{"id": "C122", "title": "Killing a 2D vertex", "statement": "MakeVertexObsolete refuses exactly for an unforced vertex of a 3D vertex with a score not below the cut. Otherwise the vertex is killed, exactly the ends that carried it become free, all other vertices, hits and points stay, the 3D vertex forgets it, and the tables of vertices agree.", "quantifier": "every slice with agreeing vertex tables, vertex, cut, force flag", "why_tests_cant": "all numbers of trajectories and vertices", "anchors": ["larreco/RecoAlg/TCAlg/TCVertex.cxx: MakeVertexObsolete(fcnLabel, slc, vx2, forceKill)"]}
{"id": "C123", "title": "Killing a 3D vertex", "statement": "MakeVertexObsolete for a 3D vertex kills exactly its 2D vertices, leaves all other vertices and all hits, and afterwards the tables of vertices and of hits agree: no trajectory is left attached to a killed vertex.", "quantifier": "every slice with agreeing tables, every 3D vertex", "why_tests_cant": "all numbers of planes, vertices and trajectories", "anchors": ["larreco/RecoAlg/TCAlg/TCVertex.cxx: MakeVertexObsolete(slc, vx3)"]}
{"id": "C124", "title": "Storing a vertex and listing its trajectories", "statement": "StoreVertex stores a vertex with the next number exactly when all trajectories that carry the number lie in its plane, and counts them; when refused for the plane it removes the number from all of them; the vertex tables agree in both cases. GetVtxTjIDs lists exactly the trajectories of the plane that are not killed and carry the vertex.", "quantifier": "every slice and vertex", "why_tests_cant": "all assignments of vertices to ends", "anchors": ["larreco/RecoAlg/TCAlg/TCVertex.cxx: StoreVertex, GetVtxTjIDs"]}
{"id": "C125", "title": "Checking the vertex tables", "statement": "ChkVtxAssociations answers yes exactly when 2D and 3D vertices of the plane name each other and each end of a trajectory (not killed, not halo) is free or carries an existing, not killed vertex; then it changes nothing; otherwise at most one end, carrying no such vertex, is cleared. Agreeing tables always pass.", "quantifier": "every slice and plane", "why_tests_cant": "all tables", "anchors": ["larreco/RecoAlg/TCAlg/TCVertex.cxx: ChkVtxAssociations"]}
{"id": "C126", "title": "Checking the hit tables", "statement": "InTrajOK answers yes whenever UseHit and InTraj agree and the vertices at ends exist; when it answers yes, a trajectory with two used and two owned hits owns all the hits it uses.", "quantifier": "every slice with fewer than 65536 trajectories", "why_tests_cant": "all tables", "anchors": ["larreco/RecoAlg/TCAlg/Utils.cxx: InTrajOK"]}
{"id": "C127", "title": "Lists of hits and duplicates", "statement": "PutTrajHitsInVector returns the used and the unused hits, which together are all hits. HasDuplicateHits answers exactly whether a hit occurs twice.", "quantifier": "every trajectory (duplicates: 1 to 65535 hits)", "why_tests_cant": "all trajectories", "anchors": ["larreco/RecoAlg/TCAlg/Utils.cxx: PutTrajHitsInVector, HasDuplicateHits"]}
{"id": "C128", "title": "Reversing a trajectory", "statement": "ReverseTraj puts the points in the opposite order with opposite directions, exchanges what belongs to the ends, and its end points are the mirror images; reversing twice gives the trajectory back (angles above -pi and at most pi).", "quantifier": "every trajectory that is neither a shower nor halo", "why_tests_cant": "all lengths", "anchors": ["larreco/RecoAlg/TCAlg/Utils.cxx: ReverseTraj, SetEndPoints"]}
{"id": "C129", "title": "Regions above threshold", "statement": "FillStartAndEndTicks returns start and end ticks of non-empty regions, in order and separated, that cover exactly the ticks whose signal reaches the threshold; it never throws and does not depend on the old contents of the output vectors.", "quantifier": "every signal and threshold", "why_tests_cant": "all lengths and shapes of signals", "anchors": ["larreco/HitFinder/RegionAboveThresholdFinder.cxx: FillStartAndEndTicks"]}
{"id": "C130", "title": "The RFF fit", "statement": "RunFitter groups its estimates exactly where neighbouring means differ by more than the match threshold, keeps the groups that are big enough and lie inside the signal, and returns result vectors of equal length: ascending means inside the signal, amplitudes that solve the equations of exactly the returned hits and reach the amplitude threshold. It ends for every signal and does not depend on earlier fits; it throws exactly when the average of a group is at the last tick.", "quantifier": "every signal, every setting of the fitter, every earlier state", "why_tests_cant": "all signals and all settings", "anchors": ["larreco/HitFinder/RFFHitFitter.cxx: RunFitter, CreateMergeVector, CalculateMergedMeansAndSigmas, CalculateAmplitudes"]}
{"id": "C131", "title": "RFF estimates", "statement": "One estimate of mean and width is made at each inner tick where the logarithmic derivative falls; where the derivative is that of a Gaussian the estimate is exactly its mean and width.", "quantifier": "every signal", "why_tests_cant": "all signals", "anchors": ["larreco/HitFinder/RFFHitFitter.cxx: CalculateAllMeansAndSigmas"]}
{"id": "C132", "title": "RFF hits", "statement": "Each hit carries its number, the number of hits of the region, a peak inside the region and an amplitude that reaches the threshold; the charge of the region is shared out completely among the hits. The vectors of parameters are accepted exactly when they give each plane its parameters.", "quantifier": "every fit result, region and sum; every parameter vectors", "why_tests_cant": "all fits", "anchors": ["larreco/HitFinder/RFFHitFinderAlg.cxx: EmplaceHit, SetFitterParamsVectors"]}
{"id": "C133", "title": "Candidates from the derivative", "statement": "The derivative tool ends on every non-empty region, reads nothing outside it, and gives candidates in time order that overlap at most in a boundary tick. In each the smoothed derivative rises to a maximum, falls to a minimum and rises again; the centre lies between them and the height is the sample at the centre. The tick with the largest absolute derivative belongs to a candidate if it meets the thresholds.", "quantifier": "every non-empty region and all thresholds (at least one tick, peak difference not negative)", "why_tests_cant": "all shapes of waveforms", "anchors": ["larreco/HitFinder/HitFinderTools/CandHitDerivative_tool.cc: findHitCandidates, findNearestMin, findNearestMax, findStartTick, findStopTick"]}
{"id": "C134", "title": "Grouping of candidates", "statement": "MergeHitCandidates appends the candidates above the minimal height, in order, cut into groups exactly where the next start is more than NumInterveningTicks after the stop before.", "quantifier": "every list of candidates", "why_tests_cant": "all lists", "anchors": ["larreco/HitFinder/HitFinderTools/CandHitDerivative_tool.cc: MergeHitCandidates", "larreco/HitFinder/HitFinderTools/CandHitMorphological_tool.cc: MergeHitCandidates"]}
{"id": "C135", "title": "Pairs of maxima and minima in a region", "statement": "Within one region the morphological tool finds disjoint pairs of a maximum and a minimum at least two ticks apart and in order; it gives all of them if one meets the thresholds and none otherwise; the gap between neighbours is shared.", "quantifier": "every region and every earlier candidate list", "why_tests_cant": "all derivatives", "anchors": ["larreco/HitFinder/HitFinderTools/CandHitMorphological_tool.cc: getListOfHitCandidates, findHitCandidates"]}
{"id": "C136", "title": "Regions and candidates of the morphological tool", "statement": "The morphological tool ends on every non-empty region of interest, reads nothing outside it and gives sound candidates in time order, none if all samples are below the threshold. The regions it searches are disjoint, each around a tick whose dilation reaches the threshold and bounded by the nearest upward zero crossings with low erosion; each tick whose dilation reaches the threshold is in a region or in a gap of at most MinDeltaTicks. Start and stop are limited to the neighbourhood of the centre.", "quantifier": "every non-empty waveform and settings", "why_tests_cant": "all shapes", "anchors": ["larreco/HitFinder/HitFinderTools/CandHitMorphological_tool.cc: findHitCandidates"]}
{"id": "C137", "title": "The image of the hits", "statement": "Building the image from any hits reads and writes only inside it; every hit lies at least 20 bins from its borders; each bin holds the hit of largest positive charge of its wire and tick, and a bin without one holds zero charge; no hit is lost.", "quantifier": "every non-empty list of hits and readout window", "why_tests_cant": "must hold for every input, not a sample", "anchors": ["larreco/RecoAlg/BlurredClusteringAlg.cxx: ConvertRecobHitsToVector"]}
{"id": "C138", "title": "Blurred clustering finds disjoint clusters", "statement": "The cluster search on any image ends and stays in range; no bin is in two clusters or twice in one, none is outside the image, no cluster is below the minimum size, and a bin away from the border has the minimum number of neighbours (in its cluster).", "quantifier": "every image, hit map and settings", "why_tests_cant": "must hold for every input, not a sample", "anchors": ["larreco/RecoAlg/BlurredClusteringAlg.cxx: FindClusters"]}
{"id": "C139", "title": "Blurred clusters are maximal", "statement": "Clusters start at a bin above the seed threshold, in the order of decreasing charge; hits joined are close in time to an earlier hit of the cluster; without hole filling and removal a cluster is grown by near bins above the charge threshold and is maximal; without the time cut the clusters are exactly the connected groups above the charge threshold with a seed and the minimum size.", "quantifier": "every image, hit map and settings", "why_tests_cant": "must hold for every input, not a sample", "anchors": ["larreco/RecoAlg/BlurredClusteringAlg.cxx: FindClusters"]}
{"id": "C140", "title": "Blurring is a convolution", "statement": "The blurred image is the convolution of the image with the Gaussian of the offset, widened by the width of the hit and skipping dead wires, and nothing outside the tables is read.", "quantifier": "every image, hits, dead wires, directions and settings", "why_tests_cant": "must hold for every input, not a sample", "anchors": ["larreco/RecoAlg/BlurredClusteringAlg.cxx: GaussianBlur, DeadWireCount, MakeKernels"]}
{"id": "C141", "title": "Blurred clusters hold input hits once", "statement": "Whatever the blurring did, the clusters made hold hits of the input only, no hit twice, none below the minimum size, each made of the hits in one cluster of bins.", "quantifier": "every list of hits, blurred image and settings", "why_tests_cant": "must hold for every input, not a sample", "anchors": ["larreco/RecoAlg/BlurredClusteringAlg.cxx: ConvertBinsToClusters"]}
{"id": "C142", "title": "Merging blurred clusters", "statement": "Merging ends for any decision on pairs; every input cluster goes whole into exactly one output cluster, because it passed the test with the cluster grown so far, and no cluster of a later output passes the test with an earlier output; no hit is lost; the decision on a pair does not depend on their order.", "quantifier": "every list of clusters, decision function and size threshold", "why_tests_cant": "must hold for every input, not a sample", "anchors": ["larreco/RecoAlg/MergeClusterAlg.cxx: MergeClusters, PassCuts"]}
{"id": "C143", "title": "Time-sorted space points are made of matching hits", "statement": "Every space point made has its own number and hit list; it is made of one U, one V and one Y hit of the input whose drift times are within TimeDiffMax and whose wire crossings agree within YDiffMax and ZDiffMax; it stands at the mean of the two crossings and mean time; no triple of hits makes two points.", "quantifier": "every set of hits in the three planes, geometry, cuts, and arrangement the sort may produce", "why_tests_cant": "must hold for every input, not a sample", "anchors": ["larreco/RecoAlg/SpacePointAlg_TimeSort.cxx: createSpacePoints", "larreco/SpacePointFinder/TTSpacePointFinder_module.cc"]}
{"id": "C144", "title": "Time-sorted space points: no matching triple is missed", "statement": "Three hits close in time whose wire crossings agree make a space point.", "quantifier": "every set of hits, geometry and cuts", "why_tests_cant": "must hold for every input, not a sample", "anchors": ["larreco/RecoAlg/SpacePointAlg_TimeSort.cxx: createSpacePoints"]}
{"id": "C145", "title": "Time-sorted space points do not depend on hit order", "statement": "The collections made are the same whatever the order of the input hits, and are defined for every event.", "quantifier": "every set of hits and permutation of them", "why_tests_cant": "must hold for every input, not a sample", "anchors": ["larreco/RecoAlg/SpacePointAlg_TimeSort.cxx: createSpacePoints, TimeOffsetVector"]}
{"id": "C146", "title": "Matched cluster groups are proper", "statement": "Clusters matched between planes are put in groups of at least two and at most one cluster per view, all enabled clusters of the input in one cryostat and TPC, and no cluster is in two groups.", "quantifier": "every list of clusters, every outcome of the compatibility tests", "why_tests_cant": "must hold for every input, not a sample", "anchors": ["larreco/RecoAlg/ClusterMatchTQ.cxx: MatchedClusters"]}
{"id": "C147", "title": "Cluster matching follows the charge-profile test", "statement": "Clusters of a group passed the compatibility test with one another, and two clusters that pass it are both matched.", "quantifier": "every list of clusters, every outcome of the compatibility tests", "why_tests_cant": "must hold for every input, not a sample", "anchors": ["larreco/RecoAlg/ClusterMatchTQ.cxx: MatchedClusters"]}
{"id": "C148", "title": "Track links name the ends that match", "statement": "A head or tail link recorded for a track leads to a later track one of whose ends is close to, and parallel with, that end of the track.", "quantifier": "every list of tracks and cuts", "why_tests_cant": "must hold for every input, not a sample", "anchors": ["larreco/RecoAlg/StitchAlg.cxx: FindHeadsAndTails"]}
{"id": "C149", "title": "Walking the links reaches every track", "statement": "Walking the links ends; composites, link lists and stitched tracks stay in step with one link fewer than components; every track of the event is a component of at least one composite.", "quantifier": "every list of tracks and cuts", "why_tests_cant": "must hold for every input, not a sample", "anchors": ["larreco/RecoAlg/StitchAlg.cxx: WalkStitch, FirstStitch"]}
{"id": "C150", "title": "Joining composites loses no track", "statement": "Joining composites that share a track ends, leaves no track in two composites, invents no track and loses none.", "quantifier": "every set of composites, in particular those of every list of tracks", "why_tests_cant": "must hold for every input, not a sample", "anchors": ["larreco/RecoAlg/StitchAlg.cxx: CommonComponentStitch", "larreco/TrackFinder/TrackStitcher_module.cc: produce"]}
{"id": "C151", "title": "A stitched track is made of its components", "statement": "A stitched track holds all points of its components in the order of the composite, each component forward or backward, joined at the ends its links name.", "quantifier": "every composite with its links, every component", "why_tests_cant": "must hold for every input, not a sample", "anchors": ["larreco/RecoAlg/StitchAlg.cxx: FirstStitch, GetTracks"]}
{"id": "C152", "title": "Hit compatibility does not depend on order", "statement": "Whether two or three hits are compatible does not depend on the order in which they are given: two hits are compatible exactly when they are in one TPC, in different views and close in corrected time; three when this holds of each pair and their wires nearly meet.", "quantifier": "every geometry, every configuration, every set of hits in different planes", "why_tests_cant": "must hold for every input, not a sample", "anchors": ["larreco/RecoAlg/SpacePointAlg.cxx: compatible, separation"]}
{"id": "C153", "title": "Space point combinations are exactly the compatible ones", "statement": "With planes of parallel evenly spaced wires the combinations of hits made into space points are compatible usable hits of different planes, none is made twice in any order, every compatible triple (or pair, where two-view points are made) whose wires cross is made, and the internal size check never throws.", "quantifier": "every geometry with ideal planes, every hit list, every configuration", "why_tests_cant": "must hold for every input, not a sample", "anchors": ["larreco/RecoAlg/SpacePointAlg.cxx: makeSpacePoints"]}
{"id": "C154", "title": "One space point per combination", "statement": "Without filter and merge each combination gives exactly one space point, with a number of its own under which its hits are found.", "quantifier": "every detector, every hit list, every configuration without filter and merge", "why_tests_cant": "must hold for every input, not a sample", "anchors": ["larreco/RecoAlg/SpacePointAlg.cxx: makeSpacePoints, fillSpacePoint, getAssociatedHits"]}
{"id": "C155", "title": "Filtering keeps the best point", "statement": "With filter there is exactly one space point for each hit that ends a combination, and no combination ending in that hit has a smaller chi square.", "quantifier": "every detector, every hit list with distinct hits", "why_tests_cant": "must hold for every input, not a sample", "anchors": ["larreco/RecoAlg/SpacePointAlg.cxx: makeSpacePoints"]}
{"id": "C156", "title": "Merging joins the hits of the points that share a hit", "statement": "With merge there is exactly one space point for each hit that ends a combination; its hits are the union of the hits of these combinations, each once, and its number is its own.", "quantifier": "every detector, every hit list with distinct hits", "why_tests_cant": "must hold for every input, not a sample", "anchors": ["larreco/RecoAlg/SpacePointAlg.cxx: makeSpacePoints, fillComplexSpacePoint"]}
{"id": "C157", "title": "Space point position is the least squares solution", "statement": "The position of a space point minimises the weighted squared time differences and the weighted squared distances from the wires of its hits, strictly where wires are not parallel; the chi square is the minimum of the time sum.", "quantifier": "every list of hits with positive widths and pitches, both weightings", "why_tests_cant": "must hold for every input, not a sample", "anchors": ["larreco/RecoAlg/SpacePointAlg.cxx: fillSpacePoint, fillComplexSpacePoint"]}
{"id": "C158", "title": "Track space points come from maximal consecutive groups", "statement": "The hits of a track are cut in one way into consecutive pieces, each a single hit or compatible, none able to take the next hit; each piece of two or more hits gives exactly one space point, in order, with its own number and its hits.", "quantifier": "every hit sequence, every geometry and configuration, every earlier track", "why_tests_cant": "must hold for every input, not a sample", "anchors": ["larreco/RecoAlg/SpacePointAlg.cxx: fillSpacePoints, numHitMap"]}
{"id": "C159", "title": "Combined book of a merge chain describes the final clusters", "statement": "After a chain of merge managers ran, the combined book keeper tells, for every final cluster of the last manager, exactly which input hit lists it contains; the groups partition the input lists; planes are never mixed; an empty chain gives the identity book and an empty event no clusters.", "quantifier": "every well-formed event, every number of managers, every merging, separating and priority algorithm", "why_tests_cant": "must hold for every input, not a sample", "anchors": ["larreco/RecoAlg/CMTool/CMTAlgMerge/CMergeHelper.cxx: CMergeHelper::Process, GetResult, GetClusters"]}
{"id": "C160", "title": "Merged clusters keep all hits and agree with their parameters", "statement": "On a non-empty event, after Process each input hit pointer is in exactly one merged hit list, each input cluster stays together, the merged hit lists and the merged cluster parameters correspond one to one, and a second Process throws; AppendResult adds one cluster per merged list with the right associations. On an empty event the getters throw although Process was called.", "quantifier": "every non-empty well-formed event, every algorithm configuration, every earlier state of the helper", "why_tests_cant": "must hold for every input, not a sample", "anchors": ["larreco/ClusterFinder/ClusterMergeHelper.cxx: SetClusters, Process, GetMergedClusterHits, GetMergedCPAN, AppendResult"]}
{"id": "C161", "title": "Array of merge conditions combines its answers left to right", "statement": "CBAlgoArray answers with the left-to-right combination of its algorithms' answers by the AND / OR each was added with.", "quantifier": "every array of algorithms, every pair of clusters", "why_tests_cant": "must hold for every input, not a sample", "anchors": ["larreco/RecoAlg/CMTool/CMTAlgMerge/CBAlgoArray.cxx: CBAlgoArray::Bool"]}
{"id": "C162", "title": "Array of priority algorithms combines scores as documented", "statement": "CPAlgoArray returns the sum, the sum of positives, the product or the last of its algorithms' scores, and a negative score vetoes in every mode but simple addition.", "quantifier": "every list of scores, every mode", "why_tests_cant": "must hold for every input, not a sample", "anchors": ["larreco/RecoAlg/CMTool/CMTAlgPriority/CPAlgoArray.cxx: CPAlgoArray::Priority"]}
{"id": "C163", "title": "One calorimetry object per track and plane, one row per hit", "statement": "TrackCalorimetryAlg appends for each track and each plane exactly one calorimetry object, associated with that track, with exactly one row per hit of the track on that plane (matched to its nearest projected trajectory point) and kinetic energy equal to the sum of dE/dx times pitch.", "quantifier": "every list of tracks with trajectory points, every assignment of hits, every detector", "why_tests_cant": "must hold for every input, not a sample", "anchors": ["larreco/Calorimetry/TrackCalorimetryAlg.cxx: ExtractCalorimetry, AnalyzeHit, ReportHits"]}
{"id": "C164", "title": "Residual ranges are measured to one end, the one with more charge", "statement": "In each calorimetry object the residual ranges are trajectory distances to one end of the track, non-decreasing, between 0 and the track length; with enough hits that end is the one with the larger charge.", "quantifier": "every usable track and every hit assignment", "why_tests_cant": "must hold for every input, not a sample", "anchors": ["larreco/Calorimetry/TrackCalorimetryAlg.cxx: IsInvertedTrack, MakeCalorimetryObject"]}
{"id": "C165", "title": "Momentum likelihood scan finds the grid minimum", "statement": "The MCS momentum scan ends and returns the first momentum with the least negative log likelihood on its grid, with the larger of the two one-sided half-unit rises as uncertainty.", "quantifier": "every likelihood function, every window and positive step", "why_tests_cant": "must hold for every input, not a sample", "anchors": ["larreco/RecoAlg/TrajectoryMCSFitter.cxx: doLikelihoodScan(…, pmin, pmax, pstep)"]}
{"id": "C166", "title": "Two-stage scan never does worse than the coarse scan", "statement": "The result of the two-stage MCS momentum scan is inside the momentum limits, inside the fine window and at least as likely as every coarse momentum.", "quantifier": "every likelihood function, every configuration whose coarse step is a multiple of the fine step", "why_tests_cant": "must hold for every input, not a sample", "anchors": ["larreco/RecoAlg/TrajectoryMCSFitter.cxx: doLikelihoodScan"]}
{"id": "C167", "title": "Trajectory segmentation covers the trajectory with segments of bounded length", "statement": "Breaking a trajectory gives strictly increasing break points at valid points from the first to past the last, cumulative lengths equal the path lengths between break points, each complete segment reaches the requested length and has enough points; cumulative length lists for both directions have one entry per scattering angle and are monotone.", "quantifier": "every trajectory with a valid point, every segment length, minimum number of hits", "why_tests_cant": "must hold for every input, not a sample", "anchors": ["larreco/RecoAlg/TrajectoryMCSFitter.cxx: breakTrajInSegments, fitMcs"]}
{"id": "C168", "title": "Exhausted momentum hypotheses are rejected", "statement": "The energy used for a segment is above the rest mass or the hypothesis is rejected.", "quantifier": "every stepwise energy loss, every number of steps, every starting energy", "why_tests_cant": "must hold for every input, not a sample", "anchors": ["larreco/RecoAlg/TrajectoryMCSFitter.cxx: GetE, mcsLikelihood"]}
{"id": "C169", "title": "3D points of Track3D come from the best free hit pairs", "statement": "With SPTAlg=1 every space point is made of exactly one hit of either of two planes, with agreeing times and crossing wires, no hit is used twice, and each hit of the first plane gets the best still unused hit of the second (least difference of path length) or no point can be made.", "quantifier": "every hit list on planes 0-2, every geometry and configuration", "why_tests_cant": "must hold for every input, not a sample", "anchors": ["larreco/RecoAlg/CosmicTrackerAlg.cxx: Track3D"]}
{"id": "C170", "title": "Every hit gets a position on the trajectory", "statement": "MakeSPT gives each hit, in order, a position on the line through the nearest trajectory point and a second one (on the other side of the hit if there is one), at the foot of the perpendicular in the hit's plane, and a direction.", "quantifier": "every hit list, every trajectory of at least two points", "why_tests_cant": "must hold for every input, not a sample", "anchors": ["larreco/RecoAlg/CosmicTrackerAlg.cxx: MakeSPT"]}
{"id": "C171", "title": "Stitching joins exactly the connected tracks", "statement": "Each track is in exactly one stitched track, and two tracks are stitched exactly if a chain of matching pairs connects them.", "quantifier": "any number of tracks, any outcome of the pairwise matching", "why_tests_cant": "must hold for every input, not a sample", "anchors": ["larreco/TrackFinder/CosmicTracker_module.cc: produce (stitching)"]}
{"id": "C172", "title": "CosmicTracker associations are consistent", "statement": "Each (position, hit) pair becomes exactly one space point associated with exactly that hit and with exactly one track; a track's points are its space points, its hits their hits, its clusters those of the joined tracks.", "quantifier": "every set of track points, every grouping, every sort direction", "why_tests_cant": "must hold for every input, not a sample", "anchors": ["larreco/TrackFinder/CosmicTracker_module.cc: produce (output)"]}
{"id": "C173", "title": "TrajOnly space points are associated with their own hits", "statement": "In TrajOnly mode a space point is associated with the hits its trajectory point was made of.", "quantifier": "every trajectory, every sort direction", "why_tests_cant": "must hold for every input, not a sample", "anchors": ["larreco/TrackFinder/CosmicTracker_module.cc: produce (TrajOnly)"]}
{"id": "C174", "title": "Trajectory clean-up removes only repeats", "statement": "Removing repeated trajectory points leaves no two equal neighbours, keeps every position, keeps position and direction paired and in order.", "quantifier": "every trajectory", "why_tests_cant": "must hold for every input, not a sample", "anchors": ["larreco/RecoAlg/CosmicTrackerAlg.cxx: TrackTrajectory"]}
{"id": "C175", "title": "Disambiguated hits are input hits on their own wires, once each", "statement": "Every disambiguated hit is a U or V hit of the input with a valid wire connected to its channel, and no two disambiguated hits have the same channel and peak time.", "quantifier": "every hit list, geometry and configuration", "why_tests_cant": "must hold for every input, not a sample", "anchors": ["larreco/RecoAlg/DisambigAlg.cxx: RunDisambig, MakeDisambigHit"]}
{"id": "C176", "title": "Disambiguation decisions are never revised", "statement": "No stage removes, reorders or changes a decision an earlier stage made.", "quantifier": "every status reachable, every stage combination", "why_tests_cant": "must hold for every input, not a sample", "anchors": ["larreco/RecoAlg/DisambigAlg.cxx: TrivialDisambig, Crawl, UseEndPts, CompareViews"]}
{"id": "C177", "title": "Disambiguation terminates", "statement": "On a channel map that names only valid wires RunDisambig ends, no loop taking more passes than there are induction hits plus one.", "quantifier": "every hit list, configuration and geometry with valid wires", "why_tests_cant": "must hold for every input, not a sample", "anchors": ["larreco/RecoAlg/DisambigAlg.cxx: RunDisambig, Crawl"]}
{"id": "C178", "title": "The crawl leaves nothing to extend", "statement": "When Crawl ends every neighbour hit (up to NChanJumps channels, wrapping around the view) whose window touches the widened window of a decided hit and whose channel has the neighbouring wire in the same TPC is decided.", "quantifier": "every hit list, geometry, number of jumps and starting status", "why_tests_cant": "must hold for every input, not a sample", "anchors": ["larreco/RecoAlg/DisambigAlg.cxx: Crawl, MakeCloseHits"]}
{"id": "C179", "title": "Time overlap of hits", "statement": "Two hits overlap in time exactly if their windows, corrected for the time offsets of their views, meet; the test is symmetric.", "quantifier": "every pair of hits, all offsets", "why_tests_cant": "must hold for every input, not a sample", "anchors": ["larreco/RecoAlg/DisambigAlg.cxx: HitsOverlapInTime"]}
{"id": "C180", "title": "Trivial disambiguation", "statement": "A hit is disambiguated by the collection view exactly if exactly one of its wires is supported by an overlapping collection hit strictly between the wire's end channels.", "quantifier": "every hit, collection hit list and geometry", "why_tests_cant": "must hold for every input, not a sample", "anchors": ["larreco/RecoAlg/DisambigAlg.cxx: TrivialDisambig"]}
{"id": "C181", "title": "Comparison of views", "statement": "A hit is disambiguated by the other induction view exactly if either the decided or the ambiguous overlapping hits unanimously cross a single one of its wires.", "quantifier": "every hit list, status and geometry", "why_tests_cant": "must hold for every input, not a sample", "anchors": ["larreco/RecoAlg/DisambigAlg.cxx: CompareViews"]}
{"id": "C182", "title": "End-point finder", "statement": "A hit is an end point exactly if at least five hits are close and all lie in a cone narrower than the configured range.", "quantifier": "every list of neighbour angles", "why_tests_cant": "must hold for every input, not a sample", "anchors": ["larreco/RecoAlg/DisambigAlg.cxx: FindChanTimeEndPts"]}
{"id": "C183", "title": "Use of end points", "statement": "A collection end point with a single overlapping end point in an induction view (U or V) and a single crossing disambiguates that end point.", "quantifier": "every list of end points", "why_tests_cant": "must hold for every input, not a sample", "anchors": ["larreco/RecoAlg/DisambigAlg.cxx: UseEndPts"]}
{"id": "C184", "title": "Neighbour channel and search window", "statement": "The neighbour channel wraps within the channels of the view, and a hit on it is considered exactly if its window touches the search range.", "quantifier": "every channel, jump, window and range", "why_tests_cant": "must hold for every input, not a sample", "anchors": ["larreco/RecoAlg/DisambigAlg.cxx: MakeCloseHits"]}
{"id": "C185", "title": "The extension never throws", "statement": "In every reachable status on a consistent geometry MakeCloseHits is never called for a collection wire.", "quantifier": "every reachable status", "why_tests_cant": "must hold for every input, not a sample", "anchors": ["larreco/RecoAlg/DisambigAlg.cxx: MakeCloseHits"]}
{"id": "C186", "title": "APA channel boundaries", "statement": "For every channel map whose first APA orders its channels U, V, collection side 0, collection side 1, the APA geometry helper accepts the map and finds exactly these boundaries.", "quantifier": "every size of the views, every TPC assignment of induction channels", "why_tests_cant": "must hold for every input, not a sample", "anchors": ["larreco/RecoAlg/APAGeometryAlg.cxx: APAGeometryAlg()"]}
{"id": "C187", "title": "First channel of a view and APA view of a channel", "statement": "The first channel of the view of a channel is the first one of that view in the channel's own APA; every channel is in the APA view of its place in the APA and the view sizes add up to the APA.", "quantifier": "every channel of every cryostat", "why_tests_cant": "must hold for every input, not a sample", "anchors": ["larreco/RecoAlg/APAGeometryAlg.cxx: FirstChannelInView, ChannelToAPA, APAView, ChannelsInView"]}
{"id": "C188", "title": "Nearest wire of a channel", "statement": "NearestWireIDOnChan returns the wire of the channel in the given TPC within half the channel range of the point, if there is one.", "quantifier": "every wire list, point, range", "why_tests_cant": "must hold for every input, not a sample", "anchors": ["larreco/RecoAlg/APAGeometryAlg.cxx: NearestWireIDOnChan"]}
{"id": "C189", "title": "Wires of a channel crossed by a line", "statement": "LineSegChanIntersect returns exactly the wires of the channel in the TPC of the line between the wires of its ends, with an optional extension of ten wires.", "quantifier": "every line, channel and extension", "why_tests_cant": "must hold for every input, not a sample", "anchors": ["larreco/RecoAlg/APAGeometryAlg.cxx: LineSegChanIntersect"]}
{"id": "C190", "title": "Crossings of channels", "statement": "APAChannelsIntersect finds exactly the crossings of wire pairs in the same TPC, symmetrically; ThreeChanPos starts from the U-V crossing in the TPC of the collection wire that is nearest to it; the sides of an APA share the wires of a channel.", "quantifier": "every wire geometry", "why_tests_cant": "must hold for every input, not a sample", "anchors": ["larreco/RecoAlg/APAGeometryAlg.cxx: APAChannelsIntersect, ThreeChanPos, ChanSegsPerSide"]}
{"id": "C191", "title": "Track trajectory: number of points", "statement": "TrackTrajectory returns positions and directions in pairs, and either none or at least two of them, never more than 100 and, beyond two, never more than the hits in the plane with most hits.", "quantifier": "all hit lists of the three planes, all geometries and fit results, also for an uninitialised chi-square", "why_tests_cant": "must hold for every input, not a sample", "anchors": ["larreco/RecoAlg/TrackTrajectoryAlg.cxx: TrackTrajectory"]}
{"id": "C192", "title": "Track trajectory: when it fails", "statement": "With hits in at least two planes, positive errors and X within 10 km, TrackTrajectory always returns a trajectory; the documented failure, an end seen by one plane only, should return none.", "quantifier": "all hit lists of the three planes", "why_tests_cant": "must hold for every input, not a sample", "anchors": ["larreco/RecoAlg/TrackTrajectoryAlg.cxx: ShortTrackTrajectory, TrackTrajectory"]}
{"id": "C193", "title": "Track trajectory: order and direction", "statement": "The same hits in the opposite order give the same points in the opposite order; the direction at each point should point along the order of the points.", "quantifier": "all hit lists whose X rises from the first to the last hit of each plane", "why_tests_cant": "must hold for every input, not a sample", "anchors": ["larreco/RecoAlg/TrackTrajectoryAlg.cxx: TrackTrajectory"]}
{"id": "C194", "title": "Track trajectory: where the points are", "statement": "The trajectory points lie within the X range of the hits and are ordered along X; the last one at the high-X end is made from the hits at that end.", "quantifier": "all hit lists of the three planes, all fit results", "why_tests_cant": "must hold for every input, not a sample", "anchors": ["larreco/RecoAlg/TrackTrajectoryAlg.cxx: TrackTrajectory"]}
{"id": "C195", "title": "Track line fit", "statement": "TrkLineFit refuses exactly the hit lists with fewer than four hits or fewer than two planes with two hits, and then leaves position and direction alone; otherwise hits exactly on a line give back the line with chi-square zero; a successful fit should return its result and weight hits by their errors.", "quantifier": "all hit lists, X origins and plane geometries; any least-squares solver", "why_tests_cant": "must hold for every input, not a sample", "anchors": ["larreco/RecoAlg/TrackLineFitAlg.cxx: TrkLineFit"]}
{"id": "C196", "title": "Vertex fit: the closest pair comes first", "statement": "fitTracks uses a rearrangement of its tracks whose first two have the smallest distance between start points among all pairs.", "quantifier": "all lists of at least two tracks with finite distances", "why_tests_cant": "must hold for every input, not a sample", "anchors": ["larreco/RecoAlg/Geometric3DVertexFitter.cxx: fitTracks"]}
{"id": "C197", "title": "Vertex fit: points of closest approach", "statement": "For unit directions that are not parallel the two points computed are the closest points of the two lines, lie in the target plane, and give both tracks of a two-track vertex the same impact distance.", "quantifier": "all start points and all pairs of non-parallel unit directions", "why_tests_cant": "must hold for every input, not a sample", "anchors": ["larreco/RecoAlg/Geometric3DVertexFitter.cxx: fitTwoTracks, closestPointAlongTrack, getParsCovsOnPlane"]}
{"id": "C198", "title": "Vertex fit: weighted average", "statement": "The weighted average of two positions does not depend on their order, minimises the sum of normalised squared distances with the chi-square as minimum, and its covariance is nowhere larger than either input.", "quantifier": "all positions and all positive definite covariances", "why_tests_cant": "must hold for every input, not a sample", "anchors": ["larreco/RecoAlg/Geometric3DVertexFitter.cxx: weightedAverageState"]}
{"id": "C199", "title": "Vertex fit: a failed average", "statement": "If the summed covariance cannot be inverted the fit should report the start of the first track, and a track should not be added to the vertex.", "quantifier": "all tracks and vertices with a singular summed covariance, any marker value", "why_tests_cant": "must hold for every input, not a sample", "anchors": ["larreco/RecoAlg/Geometric3DVertexFitter.cxx: fitTwoTracks, addTrackToVertex"]}
{"id": "C200", "title": "Vertex fit: tracks and degrees of freedom", "statement": "A vertex uses input tracks, each at most as often as given, contains the two closest ones if it has two or more, has 2n-3 degrees of freedom, and takes a further track exactly if its significance does not exceed the cut.", "quantifier": "all track lists, all propagation results, all cuts", "why_tests_cant": "must hold for every input, not a sample", "anchors": ["larreco/RecoAlg/Geometric3DVertexFitter.cxx: fitTracks, addTrackToVertex", "larreco/RecoAlg/VertexWrapper.h"]}
{"id": "C201", "title": "Vertex fit: quality of tracks", "statement": "computeMeta gives one entry per track in order, flags exactly the tracks of the vertex as included, and measures an included track against a vertex fitted without it (two tracks: the closest point of the other).", "quantifier": "all vertices with distinct tracks and all track lists", "why_tests_cant": "must hold for every input, not a sample", "anchors": ["larreco/RecoAlg/Geometric3DVertexFitter.cxx: computeMeta, unbiasedVertex"]}
{"id": "C202", "title": "Vertex fit: chi-square and significance of a track", "statement": "The chi-square of a track at a vertex equals what the vertex would gain from it, does not depend on the order of the two, and bounds the squared significance from above; a singular sum of covariances gives -1.", "quantifier": "all positions and all positive definite covariances", "why_tests_cant": "must hold for every input, not a sample", "anchors": ["larreco/RecoAlg/Geometric3DVertexFitter.cxx: chi2, ip, ipErr, sip"]}
{"id": "C203", "title": "Cosmic tagger: what is tagged", "statement": "A track carries the cosmic flag afterwards exactly if it did before or meets one of the enabled criteria; nothing but tags changes, tagging twice adds nothing, and with all criteria off nothing happens.", "quantifier": "all configurations, detectors and track collections", "why_tests_cant": "must hold for every input, not a sample", "anchors": ["larreco/RecoAlg/PMAlgCosmicTagger.cxx: tag and all taggers", "larreco/RecoAlg/PMAlgCosmicTagger.h: tagAny"]}
{"id": "C204", "title": "Cosmic tagger: the tags saved", "statement": "The cosmic tags saved for a track are exactly the criteria it meets.", "quantifier": "all configurations and track collections", "why_tests_cant": "must hold for every input, not a sample", "anchors": ["larreco/RecoAlg/PMAlgCosmicTagger.cxx: all taggers", "larreco/TrackFinder/PMAlgTrackMaker_module.cc: getCosmicTag", "larreco/RecoAlg/PMAlg/PmaTrack3D.h: ETag"]}
{"id": "C205", "title": "Cosmic tagger: the number reported", "statement": "The number of tagged tracks reported is the number of tracks tagged.", "quantifier": "all track collections without earlier tags", "why_tests_cant": "must hold for every input, not a sample", "anchors": ["larreco/RecoAlg/PMAlgCosmicTagger.cxx: tag"]}
{"id": "C206", "title": "Cosmic tagger: orientation", "statement": "Whether a track is tagged does not depend on which of its ends, or of the other tracks' ends, comes first.", "quantifier": "all configurations and tracks", "why_tests_cant": "must hold for every input, not a sample", "anchors": ["larreco/RecoAlg/PMAlgCosmicTagger.cxx: tagTopFrontBack, tagApparentStopper, fullCrossingTagger, outOfDriftWindow"]}
{"id": "C207", "title": "Cosmic tagger: dimensions of the detector", "statement": "The limits used are those of the smallest box around all TPCs with a drift of at least 25 cm.", "quantifier": "all lists of TPCs within 10 km", "why_tests_cant": "must hold for every input, not a sample", "anchors": ["larreco/RecoAlg/PMAlgCosmicTagger.cxx: GetDimensions"]}
{"id": "C208", "title": "Cosmic tagger: stopping tracks by dE/dx", "statement": "A track is kept as stopping exactly if some view has its last value three sigma from the mean or every view with values has it two sigma off; a view with at most five (ten) values can never reach two (three) sigma.", "quantifier": "all lists of dE/dx values", "why_tests_cant": "must hold for every input, not a sample", "anchors": ["larreco/RecoAlg/PMAlgCosmicTagger.cxx: tagApparentStopper"]}
{"id": "C209", "title": "Cosmic tagger: tracks with a T0", "statement": "A track with a reconstructed T0 is tagged exactly if the T0 is farther from the trigger than the margin.", "quantifier": "all tracks and T0 values", "why_tests_cant": "must hold for every input, not a sample", "anchors": ["larreco/RecoAlg/PMAlgCosmicTagger.cxx: nonBeamT0Tag"]}
{"id": "C210", "title": "Track trajectory: the hits of a point", "statement": "Every point of the trajectory is fitted to the hits within one bin width of it along X, in all planes.", "quantifier": "all hit lists of the three planes in the order of X", "why_tests_cant": "must hold for every input, not a sample", "anchors": ["larreco/RecoAlg/TrackTrajectoryAlg.cxx: TrackTrajectory"]}
{"id": "C211", "title": "Drift shift of a tree", "statement": "ApplyDriftShiftInTree on a track at the root of its tree ends and moves every node, and the hits of every track, of the tree by dx exactly once; nothing outside the tree moves. Every track of the tree gets the T0 of the total shift of its first node.", "quantifier": "all forests of tracks with two nodes or more, all shifts", "why_tests_cant": "must hold for every input, not a sample", "anchors": ["larreco/RecoAlg/PMAlg/PmaTrack3D.cxx: ApplyDriftShiftInTree", "larreco/RecoAlg/PMAlg/PmaNode3D.h: ApplyDriftShift"]}
{"id": "C212", "title": "Objective function and parameters of a tree", "statement": "GetObjFnInTree on the root is the sum of GetObjFunction over the tracks of the tree, each counted once; UpdateParamsInTree succeeds exactly if it succeeds for each of them.", "quantifier": "all forests of tracks, all values of the single tracks", "why_tests_cant": "must hold for every input, not a sample", "anchors": ["larreco/RecoAlg/PMAlg/PmaTrack3D.cxx: GetObjFnInTree, UpdateParamsInTree"]}
{"id": "C213", "title": "Projections and hit order of a tree", "statement": "MakeProjectionInTree and SortHitsInTree on the root treat each track of the tree exactly once, no other track, a track only after its branches and the root last.", "quantifier": "all forests of tracks", "why_tests_cant": "must hold for every input, not a sample", "anchors": ["larreco/RecoAlg/PMAlg/PmaTrack3D.cxx: MakeProjectionInTree, SortHitsInTree"]}
{"id": "C214", "title": "T0 from a shift", "statement": "SetT0FromDx is proportional to the shift, with the sign of the drift direction of the first node; two shifts of a tree leave the same state as one shift by their sum.", "quantifier": "all shifts, coefficients, drift directions and forests", "why_tests_cant": "must hold for every input, not a sample", "anchors": ["larreco/RecoAlg/PMAlg/PmaTrack3D.cxx: SetT0FromDx, ApplyDriftShiftInTree"]}
{"id": "C215", "title": "Score of a pair of track ends", "statement": "GetTrackPairDelta is symmetric in the two tracks, independent of the length and sign of the directions, not negative, and zero exactly if each end points at the other; a direction without X component has no score.", "quantifier": "all positions and directions", "why_tests_cant": "must hold for every input, not a sample", "anchors": ["larreco/RecoAlg/PMAlgStitching.cxx: GetTrackPairDelta"]}
{"id": "C216", "title": "Best stitching shift", "statement": "GetOptimalStitchShift returns a shift within 5 cm of the given one, in steps of 0.1 cm, with the smallest score of all these shifts (the lowest such shift), or 99999 for both if no score is below 99999.", "quantifier": "all positions, directions and first guesses, in exact arithmetic", "why_tests_cant": "must hold for every input, not a sample", "anchors": ["larreco/RecoAlg/PMAlgStitching.cxx: GetOptimalStitchShift"]}
{"id": "C217", "title": "Choice of the track to stitch", "statement": "The partner is a later, long enough track with no TPC in common, surfaces within 10 cm and opposite X directions, of the smallest score below the threshold, and if none is chosen there is none; after the shift both matched ends should be at the surface and point towards each other.", "quantifier": "all collections of tracks and configurations", "why_tests_cant": "must hold for every input, not a sample", "anchors": ["larreco/RecoAlg/PMAlgStitching.cxx: StitchTracks"]}
{"id": "C218", "title": "Joining stitched tracks", "statement": "The matched ends become neighbours in the merged track for each of the four combinations of ends; the two tracks should be moved towards each other.", "quantifier": "all pairs of ends and node lists; all forests and shifts", "why_tests_cant": "must hold for every input, not a sample", "anchors": ["larreco/RecoAlg/PMAlgStitching.cxx: StitchTracks"]}
{"id": "C219", "title": "Stitching ends", "statement": "The loop over the tracks ends, after no more rounds than there are tracks.", "quantifier": "all outcomes of the rounds", "why_tests_cant": "must hold for every input, not a sample", "anchors": ["larreco/RecoAlg/PMAlgStitching.cxx: StitchTracks"]}
{"id": "C220", "title": "Stitching surfaces", "statement": "The cathode of a TPC is its X face farther from the anode; GetTPCOffset returns the cathode or the anode of the TPC asked for, and 0 for a TPC without readout planes.", "quantifier": "all TPC dimensions and anode positions", "why_tests_cant": "must hold for every input, not a sample", "anchors": ["larreco/RecoAlg/PMAlgStitching.cxx: GetTPCXOffsets, GetTPCOffset"]}
{"id": "C221", "title": "Clusters and tracks of a shower event", "statement": "AssociateClustersAndTracks lists a cluster for a track, and the track for the cluster, exactly if the cluster is not ignored and has a hit whose only track it is, the track being long enough; nothing is listed twice.", "quantifier": "all events: clusters, hits, tracks and lists of ignored clusters", "why_tests_cant": "must hold for every input, not a sample", "anchors": ["larreco/RecoAlg/EMShowerAlg.cxx: AssociateClustersAndTracks"]}
{"id": "C222", "title": "Showers from tracks", "statement": "FindShowers puts the clusters of tracks that share clusters, directly or through other tracks, into one shower, and each cluster into one shower.", "quantifier": "all maps from tracks to clusters", "why_tests_cant": "must hold for every input, not a sample", "anchors": ["larreco/RecoAlg/EMShowerAlg.cxx: FindShowers"]}
{"id": "C223", "title": "Showers with a bad plane", "statement": "CheckShowerPlanes returns, for every shower with three planes, the clusters of the plane that dominates the others, and nothing if there is none.", "quantifier": "all showers and distributions of hits over planes", "why_tests_cant": "must hold for every input, not a sample", "anchors": ["larreco/RecoAlg/EMShowerAlg.cxx: CheckShowerPlanes"]}
{"id": "C224", "title": "Output of EMShower", "statement": "The module saves each shower with its clusters and the tracks that share a cluster with it, with its own number, the selected shower only if one is selected, and each space point with its own hits.", "quantifier": "all events and configurations", "why_tests_cant": "must hold for every input, not a sample", "anchors": ["larreco/ShowerFinder/EMShower_module.cc: produce"]}
{"id": "C225", "title": "Order of the hits of a plane", "statement": "FindOrderOfHits_ returns all hits of the plane in the order of their projection on the shower axis.", "quantifier": "all hits and axes", "why_tests_cant": "must hold for every input, not a sample", "anchors": ["larreco/RecoAlg/EMShowerAlg.cxx: FindOrderOfHits_"]}
{"id": "C226", "title": "Isolated hits at the front", "statement": "CheckIsolatedHits_ never loses or invents a hit, never fails for up to three planes with hits, and moves the hits of a wrong TPC from the front of the problem plane to its end.", "quantifier": "all maps from planes to hits", "why_tests_cant": "must hold for every input, not a sample", "anchors": ["larreco/RecoAlg/EMShowerAlg.cxx: CheckIsolatedHits_"]}
{"id": "C227", "title": "Orientation of the planes", "statement": "OrderShowerHits returns an orientation of the planes that is consistent, if there is one, and the first arrangement otherwise; it works for a desired plane as well.", "quantifier": "all hits, consistency checks and wire widths", "why_tests_cant": "must hold for every input, not a sample", "anchors": ["larreco/RecoAlg/EMShowerAlg.cxx: OrderShowerHits, GetPlanePermutations_, RelativeWireWidth_"]}
{"id": "C228", "title": "Planes of the initial track", "statement": "The initial track is made of two different planes with the most hits, without the plane of the smallest wire width if three planes are inconsistent.", "quantifier": "all numbers of hits and wire widths", "why_tests_cant": "must hold for every input, not a sample", "anchors": ["larreco/RecoAlg/EMShowerAlg.cxx: WorstPlane_, MakeInitialTrack_"]}
{"id": "C229", "title": "Hits at the start of a shower", "statement": "FindShowerStart_ returns different hits of the shower, at least one and two if the shower has more than two, each near the start of the shower, none alone in its TPC.", "quantifier": "all ordered hits", "why_tests_cant": "must hold for every input, not a sample", "anchors": ["larreco/RecoAlg/EMShowerAlg.cxx: FindShowerStart_"]}
{"id": "C230", "title": "Space points of a shower", "statement": "MakeSpacePoints makes each point of two or three close hits of one TPC in different planes, uses each hit for one point, and misses no close pair of unused hits of a shower with two planes; the points and their hits are in the same order.", "quantifier": "all hits and closeness relations", "why_tests_cant": "must hold for every input, not a sample", "anchors": ["larreco/RecoAlg/EMShowerAlg.cxx: MakeSpacePoints"]}
{"id": "C231", "title": "dE/dx from the initial hits", "statement": "FinddEdx_ uses the first hits of the track that fit into the configured length: their charge over the length they cover, at their mean time; the first hit alone if the pitch exceeds the length.", "quantifier": "all hits, lengths and pitches", "why_tests_cant": "must hold for every input, not a sample", "anchors": ["larreco/RecoAlg/EMShowerAlg.cxx: FinddEdx_"]}
{"id": "C232", "title": "Direction of the initial track", "statement": "ConstructTrack starts the track at the end farther from the shower centre, with one direction per point, towards the next point.", "quantifier": "all fitted points and shower centres", "why_tests_cant": "must hold for every input, not a sample", "anchors": ["larreco/RecoAlg/EMShowerAlg.cxx: ConstructTrack"]}
{"id": "C233", "title": "Best plane of a shower", "statement": "MakeShower returns a value per plane, computed for the planes with hits and 0 for the others, and the first plane with the most hits as best plane, -1 without hits.", "quantifier": "all hits and initial hits", "why_tests_cant": "must hold for every input, not a sample", "anchors": ["larreco/RecoAlg/EMShowerAlg.cxx: MakeShower"]}
{"id": "C234", "title": "Shower at a vertex", "statement": "MakeShower with a vertex uses the two planes with the most hits, starts at the end of the space points nearer to the vertex, with the direction to the fifth next point, whatever the order of the points, and takes the plane of the smallest pitch as best plane.", "quantifier": "all hits, space points and pitches", "why_tests_cant": "must hold for every input, not a sample", "anchors": ["larreco/RecoAlg/EMShowerAlg.cxx: MakeShower"]}
{"id": "C235", "title": "Hits near a vertex", "statement": "OrderShowerHits_ keeps or reverses the hits so that the first one in the TPC of the vertex is not farther from it than the last one; FindInitialTrackHits returns hits in their order, in one TPC (the one with the most hits if the vertex is in none), not more than asked for, the first ones close to the fitted line.", "quantifier": "all hits, vertices and passes", "why_tests_cant": "must hold for every input, not a sample", "anchors": ["larreco/RecoAlg/EMShowerAlg.cxx: OrderShowerHits_, FindInitialTrackHits"]}
{"id": "C236", "title": "Line fits of showers", "statement": "WeightedFit returns the weighted least squares line, and fails exactly if there is none; the direction of a plane has the slope of the best line weighted by the squares of the charges.", "quantifier": "all points with positive weights", "why_tests_cant": "must hold for every input, not a sample", "anchors": ["larreco/RecoAlg/EMShowerAlg.cxx: WeightedFit, ShowerDirection_, ShowerHitRMSGradient_"]}
{"id": "C237", "title": "Clean showers", "statement": "isCleanShower holds for fewer than 20 (but some) or more than 2000 hits, and otherwise exactly if the hits 3 to 20 are on at least 13 wires.", "quantifier": "all hits", "why_tests_cant": "must hold for every input, not a sample", "anchors": ["larreco/RecoAlg/EMShowerAlg.cxx: isCleanShower"]}
{"id": "C238", "title": "Centre of a shower", "statement": "ShowerCenter_ lies between the hits in both coordinates.", "quantifier": "all hits with positive charge", "why_tests_cant": "must hold for every input, not a sample", "anchors": ["larreco/RecoAlg/EMShowerAlg.cxx: ShowerCenter_"]}
{"id": "C239", "title": "Segments of a shower", "statement": "ShowerHitRMSGradient_ divides the hits into NumShowerSegments segments by their distance from the first hit.", "quantifier": "all hits and numbers of segments", "why_tests_cant": "must hold for every input, not a sample", "anchors": ["larreco/RecoAlg/EMShowerAlg.cxx: ShowerHitRMSGradient_"]}
{"id": "C240", "title": "Hits of a long pulse", "statement": "A pulse that is not fitted is cut into non-empty consecutive pieces that cover it, at most LongMaxHits of them, each with the area of its samples.", "quantifier": "all pulses and configurations", "why_tests_cant": "must hold for every input, not a sample", "anchors": ["larreco/HitFinder/GausHitFinder_module.cc: produce"]}
{"id": "C241", "title": "Windows of the hits of a pulse", "statement": "Every peak of a pulse gives one hit, with its position as local index; the samples summed for it are inside the pulse, around its peak, and disjoint from those of the other hits.", "quantifier": "all peaks returned by the fit", "why_tests_cant": "must hold for every input, not a sample", "anchors": ["larreco/HitFinder/GausHitFinder_module.cc: produce"]}
{"id": "C242", "title": "Sums of the hits of a pulse", "statement": "For a non-negative signal the sums of the hits of a pulse are together at most the sum of the pulse.", "quantifier": "all signals and peaks", "why_tests_cant": "must hold for every input, not a sample", "anchors": ["larreco/HitFinder/GausHitFinder_module.cc: produce"]}
{"id": "C243", "title": "Filter of the hits of a pulse", "statement": "The filtered hits of a pulse are, whatever the order of equal amplitudes, the hits not too small compared with the largest one if that passes the cuts, and none otherwise; the configured filter keeps exactly the hits above the values of their plane.", "quantifier": "all hits, cuts and orders of equal hits", "why_tests_cant": "must hold for every input, not a sample", "anchors": ["larreco/HitFinder/GausHitFinder_module.cc: produce", "larreco/HitFinder/HitFilterAlg.cxx: IsGoodHit"]}
{"id": "C244", "title": "Hits of concurrent tasks", "statement": "For every schedule of the tasks the event has each hit exactly once, those of a task in the order it made them, and the collection is the same.", "quantifier": "all schedules", "why_tests_cant": "must hold for every input, not a sample", "anchors": ["larreco/HitFinder/GausHitFinder_module.cc: produce"]}
{"id": "C245", "title": "Products of GausHitFinder", "statement": "The module puts into the event exactly the collections it declares; parameters of the planes have one value each.", "quantifier": "all configurations", "why_tests_cant": "must hold for every input, not a sample", "anchors": ["larreco/HitFinder/GausHitFinder_module.cc: produce", "larreco/HitFinder/GausHitFinder_module.cc: GausHitFinder, FillOutHitParameterVector"]}
{"id": "C246", "title": "Charge of the hits", "statement": "The charges of the hits of a long pulse add up to its sum, and the error of the charge covers the change of the charge within the error of the amplitude.", "quantifier": "all signals, amplitudes, widths and errors", "why_tests_cant": "must hold for every input, not a sample", "anchors": ["larreco/HitFinder/GausHitFinder_module.cc: produce"]}
{"id": "C247", "title": "Start values of the fit", "statement": "The start values of a fit are within the limits given for them, and a fit that stays there returns the candidates.", "quantifier": "all candidates and configurations", "why_tests_cant": "must hold for every input, not a sample", "anchors": ["larreco/HitFinder/HitFinderTools/PeakFitterMrqdt_tool.cc: findPeakParameters", "larreco/HitFinder/HitFinderTools/PeakFitterGaussian_tool.cc: SetFitParameters"]}
{"id": "C248", "title": "The shifted Gaussian", "statement": "FindShiftedGaussian returns the candidate and the fitted peak closest to each other.", "quantifier": "all candidates and peaks", "why_tests_cant": "must hold for every input, not a sample", "anchors": ["larreco/HitFinder/HitFinderTools/PeakFitterGaussian_tool.cc: FindShiftedGaussian"]}
{"id": "C249", "title": "Peaks and multiplicity", "statement": "The number of peaks a fit returns is the multiplicity given to the hits.", "quantifier": "all fits, refits and configurations", "why_tests_cant": "must hold for every input, not a sample", "anchors": ["larreco/HitFinder/HitFinderTools/PeakFitterGaussian_tool.cc: findPeakParameters", "larreco/HitFinder/GausHitFinder_module.cc: produce"]}
{"id": "C250", "title": "Hits organised for calorimetry", "statement": "However the hits of a track are organised, every valid hit is in exactly one element, that of its plane, once, and no other hit is in any.", "quantifier": "all lists of hits, planes and both ways to organise", "why_tests_cant": "must hold for every input, not a sample", "anchors": ["larreco/Calorimetry/GnocchiCalorimetry_module.cc: OrganizeHits, OrganizeHitsIndividual, OrganizeHitsSnippets"]}
{"id": "C251", "title": "Snippets", "statement": "Hits that share an element are hits of one snippet (same wire, start and end), and the element is led by the one with the largest integral; two elements are never the same snippet.", "quantifier": "all lists of hits", "why_tests_cant": "must hold for every input, not a sample", "anchors": ["larreco/Calorimetry/GnocchiCalorimetry_module.cc: OrganizeHitsSnippets"]}
{"id": "C252", "title": "Charge of the elements", "statement": "The charges given to the elements of a plane add up to the charge of its valid hits.", "quantifier": "all lists of hits and methods", "why_tests_cant": "must hold for every input, not a sample", "anchors": ["larreco/Calorimetry/GnocchiCalorimetry_module.cc: GetCharge"]}
{"id": "C253", "title": "Residual ranges", "statement": "Each hit of a plane has a residual range, the length of the path from it to the end of the track, whatever the order in which the hits are given.", "quantifier": "all tracks, hits and distances", "why_tests_cant": "must hold for every input, not a sample", "anchors": ["larreco/Calorimetry/GnocchiCalorimetry_module.cc: FillTrackCaloInfo (residual range)", "larreco/Calorimetry/Calorimetry_module.cc: produce"]}
{"id": "C254", "title": "Calorimetry objects", "statement": "Each track has one object for every plane, associated with that track alone; its vectors have one entry for each hit, its energy is the sum of dE/dx times pitch and its range the length of the path.", "quantifier": "all tracks, planes and hits", "why_tests_cant": "must hold for every input, not a sample", "anchors": ["larreco/Calorimetry/GnocchiCalorimetry_module.cc: produce", "larreco/Calorimetry/Calorimetry_module.cc: produce"]}
{"id": "C255", "title": "Trajectory points of hits", "statement": "A hit with a valid trajectory point is used; a hit is used only with such a point.", "quantifier": "all associations of hits with points", "why_tests_cant": "must hold for every input, not a sample", "anchors": ["larreco/Calorimetry/Calorimetry_module.cc: produce (metadata)"]}
{"id": "C256", "title": "Direction by charge", "statement": "The direction of a track follows the charge: it goes towards the end where its hits have more charge.", "quantifier": "all tracks", "why_tests_cant": "must hold for every input, not a sample", "anchors": ["larreco/Calorimetry/Calorimetry_module.cc: produce (GoingDS)"]}
{"id": "C257", "title": "Dead wires", "statement": "The residual range of a dead wire is measured from the hit closest to that wire.", "quantifier": "all hits, dead wires", "why_tests_cant": "must hold for every input, not a sample", "anchors": ["larreco/Calorimetry/Calorimetry_module.cc: produce (dead wires)"]}
{"id": "C258", "title": "Space points of a hit", "statement": "A hit is placed by its (up to five) closest space points, and is not on the track if none is within 30 cm.", "quantifier": "all sets of space points", "why_tests_cant": "must hold for every input, not a sample", "anchors": ["larreco/Calorimetry/Calorimetry_module.cc: GetPitch"]}
{"id": "C259", "title": "Shower calorimetry", "statement": "The object of a plane of a shower has one row for each of its hits with a space point, and its energy is the sum of dE/dx times pitch.", "quantifier": "all showers and hits", "why_tests_cant": "must hold for every input, not a sample", "anchors": ["larreco/Calorimetry/ShowerCalorimetry_module.cc: produce"]}
{"id": "C260", "title": "Modified box model", "statement": "The correction for recombination with the modified box model inverts that model, grows with the charge, and gives no energy for no charge.", "quantifier": "all charges, fields and parameters", "why_tests_cant": "must hold for every input, not a sample", "anchors": ["larreco/Calorimetry/CalorimetryAlg.cxx: dEdx_from_dQdx_e"]}
{"id": "C261", "title": "Birks' law", "statement": "The correction with Birks' law inverts that law and gives no negative energy.", "quantifier": "all charges, fields and parameters", "why_tests_cant": "must hold for every input, not a sample", "anchors": ["larreco/Calorimetry/CalorimetryAlg.cxx: dEdx_from_dQdx_e"]}
{"id": "C262", "title": "Lifetime correction", "statement": "The correction for the lifetime is one at the time of the track, grows with the drift time and is multiplicative; with both corrections the deposit is recovered from the charge left of it.", "quantifier": "all times, lifetimes and deposits", "why_tests_cant": "must hold for every input, not a sample", "anchors": ["larreco/Calorimetry/CalorimetryAlg.cxx: LifetimeCorrection, dEdx_AREA, dEdx_AMP"]}
{"id": "C263", "title": "ClusterCrawler: a cluster is stored exactly if its hits are free, distinct, in one plane and on falling wires", "statement": "TmpStore succeeds exactly if there are 2 to n hits, none used or repeated, all in one plane, on falling wires (unless the processor code is at least 900), and fewer than 32767 clusters; then exactly these hits are marked with the next number and the new cluster, last in the list, has their ends; nothing else changes", "quantifier": "all states, hit lists and processor codes", "why_tests_cant": "must hold for every input, not a sample", "anchors": ["larreco/RecoAlg/ClusterCrawlerAlg.cxx: TmpStore"]}
{"id": "C264", "title": "ClusterCrawler: an attempt to store that fails changes nothing", "statement": "A TmpStore that fails leaves clusters, numbers and marks as they were", "quantifier": "all states, hit lists and processor codes", "why_tests_cant": "must hold for every input, not a sample", "anchors": ["larreco/RecoAlg/ClusterCrawlerAlg.cxx: TmpStore"]}
{"id": "C265", "title": "ClusterCrawler: the charges of the ends are read from the hits of the cluster", "statement": "For the charges at the two ends of a stored cluster only positions inside of its hits are read", "quantifier": "all sizes a cluster can have", "why_tests_cant": "must hold for every input, not a sample", "anchors": ["larreco/RecoAlg/ClusterCrawlerAlg.cxx: TmpStore"]}
{"id": "C266", "title": "ClusterCrawler: deleting a cluster and restoring it is the identity", "statement": "Deleting a live cluster frees exactly its hits; restoring it gives back the state before", "quantifier": "all reachable states and clusters", "why_tests_cant": "must hold for every input, not a sample", "anchors": ["larreco/RecoAlg/ClusterCrawlerAlg.cxx: MakeClusterObsolete", "larreco/RecoAlg/ClusterCrawlerAlg.cxx: RestoreObsoleteCluster"]}
{"id": "C267", "title": "ClusterCrawler: in every history no hit is in two live clusters and the check of the module passes", "statement": "After any sequence of stores, deletions, splits, merges, replacements and hit removals, failing or not, live clusters share no hit, have no hit twice, are in one plane, are numbered in order, and produce() does not reject the event", "quantifier": "all histories of operations with all arguments", "why_tests_cant": "must hold for every input, not a sample", "anchors": ["larreco/RecoAlg/ClusterCrawlerAlg.cxx: TmpStore", "larreco/RecoAlg/ClusterCrawlerAlg.cxx: SplitCluster", "larreco/RecoAlg/ClusterCrawlerAlg.cxx: DoMerge", "larreco/RecoAlg/ClusterCrawlerAlg.cxx: MergeOverlap", "larreco/RecoAlg/ClusterCrawlerAlg.cxx: ChkClusterDS", "larreco/RecoAlg/ClusterCrawlerAlg.cxx: VtxClusterSplit", "larreco/RecoAlg/ClusterCrawlerAlg.cxx: RefineVertexClusters", "larreco/ClusterFinder/ClusterCrawler_module.cc: produce"]}
{"id": "C268", "title": "ClusterCrawler: a hit marked with a number is in the live cluster of that number", "statement": "In every history a hit carries a number k exactly if it is in the live cluster k", "quantifier": "all histories of operations", "why_tests_cant": "must hold for every input, not a sample", "anchors": ["larreco/RecoAlg/ClusterCrawlerAlg.cxx: TmpStore", "larreco/RecoAlg/ClusterCrawlerAlg.cxx: CheckHitClusterAssociations"]}
{"id": "C269", "title": "ClusterCrawler: splitting replaces a cluster by its two parts", "statement": "SplitCluster replaces the cluster by one with the hits before and one with the hits from the split on, joined by the vertex, and touches no other cluster", "quantifier": "all states, clusters, positions and vertices", "why_tests_cant": "must hold for every input, not a sample", "anchors": ["larreco/RecoAlg/ClusterCrawlerAlg.cxx: SplitCluster"]}
{"id": "C270", "title": "ClusterCrawler: a merged cluster has the hits of the first and those of the second on other wires", "statement": "DoMerge replaces two clusters by one with the hits of the first and those of the second on wires where the first has none, on falling wires, with the outer vertices; hits left over are free", "quantifier": "all states and pairs of clusters that pass the fit", "why_tests_cant": "must hold for every input, not a sample", "anchors": ["larreco/RecoAlg/ClusterCrawlerAlg.cxx: DoMerge"]}
{"id": "C271", "title": "ClusterCrawler: merging overlapping clusters keeps the outer vertices", "statement": "The cluster made by MergeOverlap has the begin vertex of the downstream and the end vertex of the upstream cluster", "quantifier": "all states and pairs", "why_tests_cant": "must hold for every input, not a sample", "anchors": ["larreco/RecoAlg/ClusterCrawlerAlg.cxx: MergeOverlap"]}
{"id": "C272", "title": "ClusterCrawler: removing obsolete hits keeps all others, in order, with their clusters", "statement": "RemoveObsoleteHits keeps every hit that is not obsolete, in order and with its mark, and every live cluster has the same hits under their new numbers", "quantifier": "all states reached by histories", "why_tests_cant": "must hold for every input, not a sample", "anchors": ["larreco/RecoAlg/ClusterCrawlerAlg.cxx: RemoveObsoleteHits"]}
{"id": "C273", "title": "ClusterCrawler: a shortened cluster takes the place of the old one", "statement": "RefineVertexClusters replaces a cluster by its first hits with the vertex at its end and changes no other cluster", "quantifier": "all states, clusters and lengths", "why_tests_cant": "must hold for every input, not a sample", "anchors": ["larreco/RecoAlg/ClusterCrawlerAlg.cxx: RefineVertexClusters"]}
{"id": "C274", "title": "ClusterCrawler: the duplicate check is exact", "statement": "CheckHitDuplicates reports duplicates exactly if a hit comes twice", "quantifier": "all hit lists", "why_tests_cant": "must hold for every input, not a sample", "anchors": ["larreco/RecoAlg/ClusterCrawlerAlg.cxx: CheckHitDuplicates"]}
{"id": "C275", "title": "ClusterCrawler: the hit range of a wire covers exactly its hits", "statement": "For hits sorted by plane and wire, GetHitRange gives each good wire with hits exactly the range of their positions, -2 to good wires without hits and -1 to bad ones; all hits of the plane lie from the first to before the last wire", "quantifier": "all sorted hit lists, planes and channel states", "why_tests_cant": "must hold for every input, not a sample", "anchors": ["larreco/RecoAlg/ClusterCrawlerAlg.cxx: GetHitRange"]}
{"id": "C276", "title": "ClusterCrawler: the dead wires between two wires are the bad channels, in either order", "statement": "DeadWireCount(a, b) = DeadWireCount(b, a) = the number of bad channels on wires from the lower to the higher, both included", "quantifier": "all hits, channel states and pairs of wires", "why_tests_cant": "must hold for every input, not a sample", "anchors": ["larreco/RecoAlg/ClusterCrawlerAlg.cxx: DeadWireCount"]}
{"id": "C277", "title": "ClusterCrawler: a cluster is removed as a ghost only if a larger one covers half of its wires closely", "statement": "KillGarbageClusters removes a cluster only if an earlier live one of the plane overlaps it, has a similar angle, more wires and more charge, and hits close on the same wires for at least half of the wires; such a one is removed", "quantifier": "all cluster lists and cuts", "why_tests_cant": "must hold for every input, not a sample", "anchors": ["larreco/RecoAlg/ClusterCrawlerAlg.cxx: KillGarbageClusters"]}
{"id": "C278", "title": "ClusterCrawler: merging a multiplet keeps its charge", "statement": "MergeHits gives the hit the sum of the charges of the multiplet, makes exactly the other hits obsolete, and the hit is then alone in its multiplet; without a merge nothing changes", "quantifier": "all hits, marks and multiplets", "why_tests_cant": "must hold for every input, not a sample", "anchors": ["larreco/RecoAlg/ClusterCrawlerAlg.cxx: MergeHits", "larreco/RecoAlg/ClusterCrawlerAlg.cxx: FixMultipletLocalIndices", "larreco/RecoAlg/ClusterCrawlerAlg.cxx: FindHitMultiplet"]}
{"id": "C279", "title": "Kalman fit: the mask of each hit is the given one plus the asked-for rejections", "statement": "There is one mask for each input hit: that of the same number of the trajectory (or the default), with the hit marked merged/suspicious and excluded exactly if the configuration rejects high multiplicity/negative goodness of fit", "quantifier": "all hits, masks and configurations", "why_tests_cant": "must hold for every input, not a sample", "anchors": ["larreco/RecoAlg/TrackKalmanFitter.cxx: setupInputStates"]}
{"id": "C280", "title": "Kalman fit: the forward pass places each hit exactly once", "statement": "After a forward pass that does not fail each input hit is exactly once either a point of the fit or a rejected hit, and each point has one predicted and one updated state", "quantifier": "all hits, masks, orders, configurations and all answers of the propagator and the update", "why_tests_cant": "must hold for every input, not a sample", "anchors": ["larreco/RecoAlg/TrackKalmanFitter.cxx: doFitWork"]}
{"id": "C281", "title": "Kalman fit: a hit taken out of the fit is not used", "statement": "With hits sorted by plane no hit whose mask says no point, excluded or rejected becomes a point", "quantifier": "all hits, masks, configurations and answers of the propagator", "why_tests_cant": "must hold for every input, not a sample", "anchors": ["larreco/RecoAlg/TrackKalmanFitter.cxx: doFitWork"]}
{"id": "C282", "title": "Kalman fit: without sorting by plane hits are used in their order, and none that was taken out", "statement": "Points and rejected hits are in the order of the input and no hit without a point, excluded or rejected becomes a point", "quantifier": "all hits, masks, configurations and answers of the propagator", "why_tests_cant": "must hold for every input, not a sample", "anchors": ["larreco/RecoAlg/TrackKalmanFitter.cxx: doFitWork"]}
{"id": "C283", "title": "Kalman fit: the points of each plane are in the order of the plane", "statement": "With hits sorted by plane, the points of each plane come in the order given to the hits of that plane (input order or wire order)", "quantifier": "all hits, orders, configurations and answers of the propagator", "why_tests_cant": "must hold for every input, not a sample", "anchors": ["larreco/RecoAlg/TrackKalmanFitter.cxx: doFitWork"]}
{"id": "C284", "title": "Kalman fit: a fit that succeeds has at least four fitted points", "statement": "If fitTrack returns true the track has at least four points not excluded from the fit, and fitted points are made of different hits", "quantifier": "all inputs and all answers of the propagator", "why_tests_cant": "must hold for every input, not a sample", "anchors": ["larreco/RecoAlg/TrackKalmanFitter.cxx: doFitWork", "larreco/RecoAlg/TrackKalmanFitter.cxx: fitTrack", "larreco/RecoAlg/TrackKalmanFitter.cxx: fillResult"]}
{"id": "C285", "title": "Kalman fit: the cleaned path does not turn back", "statement": "With cleanZigzag the points kept form a path that never turns back, in the same order, with the same first and last point, and every point taken away becomes a rejected hit", "quantifier": "all sequences of points", "why_tests_cant": "must hold for every input, not a sample", "anchors": ["larreco/RecoAlg/TrackKalmanFitter.cxx: sortOutput"]}
{"id": "C286", "title": "Kalman fit: ordering the output loses and repeats no hit", "statement": "After sortOutput the points and the rejected hits are those before, each once", "quantifier": "all points, masks and configurations", "why_tests_cant": "must hold for every input, not a sample", "anchors": ["larreco/RecoAlg/TrackKalmanFitter.cxx: sortOutput"]}
{"id": "C287", "title": "Kalman fit: the points of the track say how they were made, and each valid one has momentum", "statement": "A rejected hit is ignored, without point, excluded or rejected, with chi2 -1; a fitted point has its chi2 unless excluded; if the fit succeeds every valid point has momentum", "quantifier": "all fits", "why_tests_cant": "must hold for every input, not a sample", "anchors": ["larreco/RecoAlg/TrackKalmanFitter.cxx: fillResult"]}
{"id": "C288", "title": "Kalman fit in both directions: the better of the two fits", "statement": "With tryBothDirs the fit succeeds if one of the fits from the two ends does, and returns the better one; otherwise it starts at the end asked for", "quantifier": "all trajectories and fits", "why_tests_cant": "must hold for every input, not a sample", "anchors": ["larreco/RecoAlg/TrackKalmanFitter.cxx: fitTrack"]}
{"id": "C289", "title": "Kalman fit: the second attempt is a fit without skipping and cleaning", "statement": "When the fit fails and is tried again without skipping and cleaning, it succeeds whenever the fit of the input without skipping and cleaning does", "quantifier": "all inputs and configurations", "why_tests_cant": "must hold for every input, not a sample", "anchors": ["larreco/RecoAlg/TrackKalmanFitter.cxx: fitTrack", "larreco/RecoAlg/TrackKalmanFitter.cxx: doFitWork"]}
{"id": "C290", "title": "Kalman fit: the output hits are the input hits", "statement": "If fitTrack returns true the output hits are the input hits, each exactly once", "quantifier": "all hits, masks, orders, configurations and all answers of the propagator and the update", "why_tests_cant": "must hold for every input, not a sample", "anchors": ["larreco/RecoAlg/TrackKalmanFitter.cxx: fitTrack", "larreco/RecoAlg/TrackKalmanFitter.cxx: fillResult"]}
{"id": "C291", "title": "Bookkeeping: what is set is what is read", "statement": "setMatrix, setDetPlane and setNumber succeed exactly if the key is booked and the hit exists; the value is then read back at that key and hit and nothing else changes; otherwise an exception is thrown and no value changes", "quantifier": "all histories of calls, keys, hits and values", "why_tests_cant": "must hold for every input, not a sample", "anchors": ["larreco/Genfit/GFBookkeeping.cxx: setMatrix", "larreco/Genfit/GFBookkeeping.cxx: setDetPlane", "larreco/Genfit/GFBookkeeping.cxx: setNumber", "larreco/Genfit/GFBookkeeping.cxx: getMatrix"]}
{"id": "C292", "title": "Bookkeeping: reading gives a value or an exception", "statement": "Reading a booked key gives a value for each hit and an exception beyond; reading a key that is not booked throws an exception", "quantifier": "all histories of calls, keys and hits", "why_tests_cant": "must hold for every input, not a sample", "anchors": ["larreco/Genfit/GFBookkeeping.cxx: getMatrix", "larreco/Genfit/GFBookkeeping.cxx: getDetPlane", "larreco/Genfit/GFBookkeeping.cxx: getNumber"]}
{"id": "C293", "title": "Bookkeeping: a key is booked once", "statement": "Booking succeeds exactly if the number of hits is known and the key is not booked for that kind of value; then each hit has the default, and no other value changes; otherwise an exception is thrown and no value changes", "quantifier": "all histories of calls and keys", "why_tests_cant": "must hold for every input, not a sample", "anchors": ["larreco/Genfit/GFBookkeeping.cxx: bookMatrices", "larreco/Genfit/GFBookkeeping.cxx: bookGFDetPlanes", "larreco/Genfit/GFBookkeeping.cxx: bookNumbers"]}
{"id": "C294", "title": "Bookkeeping: an object read back is the one written", "statement": "Reading what the streamer wrote gives an object with the same number of hits, keys, values and failed hits", "quantifier": "all histories of calls", "why_tests_cant": "must hold for every input, not a sample", "anchors": ["larreco/Genfit/GFBookkeeping.cxx: Streamer"]}
{"id": "C295", "title": "Bookkeeping: a reset keeps the keys and forgets the values", "statement": "reset and setNhits keep all keys, give every hit of every key the default value and forget the failed hits", "quantifier": "all histories of calls", "why_tests_cant": "must hold for every input, not a sample", "anchors": ["larreco/Genfit/GFBookkeeping.cxx: reset", "larreco/Genfit/GFBookkeeping.h: setNhits"]}
{"id": "C296", "title": "Bookkeeping: failed hits are counted since they were last forgotten", "statement": "hitFailed and getNumFailed count the reports of that hit, and of all hits, since the last clearFailedHits, reset or setNhits", "quantifier": "all histories of calls and hits", "why_tests_cant": "must hold for every input, not a sample", "anchors": ["larreco/Genfit/GFBookkeeping.cxx: addFailedHit", "larreco/Genfit/GFBookkeeping.cxx: hitFailed", "larreco/Genfit/GFBookkeeping.cxx: getNumFailed", "larreco/Genfit/GFBookkeeping.cxx: clearFailedHits"]}
{"id": "C297", "title": "Bookkeeping: a copy is equal to the original", "statement": "Copying an object works and the copy has the same number of hits, keys, values and failed hits", "quantifier": "all histories of calls", "why_tests_cant": "must hold for every input, not a sample", "anchors": ["larreco/Genfit/GFBookkeeping.cxx: GFBookkeeping(const GFBookkeeping&)"]}
{"id": "C298", "title": "FFT hit finder: the pulses are the peaks above threshold", "statement": "The pulses found on a wire are, in order and each once, the ticks inside the signal that are above the threshold and above both neighbours", "quantifier": "all signals and thresholds", "why_tests_cant": "must hold for every input, not a sample", "anchors": ["larreco/HitFinder/FFTHitFinder_module.cc: produce"]}
{"id": "C299", "title": "FFT hit finder: each pulse has a window in the signal that holds its peak", "statement": "Each pulse has one start and one end tick in the signal, with the peak not before the start and before the end", "quantifier": "all signals and thresholds", "why_tests_cant": "must hold for every input, not a sample", "anchors": ["larreco/HitFinder/FFTHitFinder_module.cc: produce"]}
{"id": "C300", "title": "FFT hit finder: the windows of pulses do not overlap", "statement": "The window of each pulse ends before that of the next one begins", "quantifier": "all signals and thresholds", "why_tests_cant": "must hold for every input, not a sample", "anchors": ["larreco/HitFinder/FFTHitFinder_module.cc: produce"]}
{"id": "C301", "title": "FFT hit finder: pulses are fitted in groups, each once", "statement": "The pulses are split in their order, each once, into groups of at most the asked-for number; neighbours in a group follow without a gap with a dip above half the threshold, and a group ends only where this fails, at the asked-for number or at the last pulse", "quantifier": "all signals, thresholds and largest group sizes", "why_tests_cant": "must hold for every input, not a sample", "anchors": ["larreco/HitFinder/FFTHitFinder_module.cc: produce"]}
{"id": "C302", "title": "FFT hit finder: the fit window of a group", "statement": "The fit window of a group lies in the signal, holds all its peaks, and begins and ends with the first and last tick not below half the smallest peak", "quantifier": "all signals, thresholds and group sizes", "why_tests_cant": "must hold for every input, not a sample", "anchors": ["larreco/HitFinder/FFTHitFinder_module.cc: produce"]}
{"id": "C303", "title": "FFT hit finder: hits hold the signal they were found in", "statement": "There are at most as many hits as peaks, each with amplitude above half the threshold and width above the smallest, with a window in the signal that holds a peak, and with the charge of that window, which is positive", "quantifier": "all signals, thresholds and all results of the fit", "why_tests_cant": "must hold for every input, not a sample", "anchors": ["larreco/HitFinder/FFTHitFinder_module.cc: produce"]}
{"id": "C304", "title": "TT hit finder: hits are the ticks above threshold with a window above the tail threshold", "statement": "A tick with its window in the signal gives a hit exactly if its peak value reaches the threshold and no tick of the window is below the tail threshold; the charge is the sum over the window", "quantifier": "all signals, widths, thresholds and ticks", "why_tests_cant": "must hold for every input, not a sample", "anchors": ["larreco/HitFinder/TTHitFinder_module.cc: produce", "larreco/HitFinder/TTHitFinder_module.cc: getTotalCharge"]}
{"id": "C305", "title": "TT hit finder: only the signal is read", "statement": "No tick outside the signal is read", "quantifier": "all signals, widths, thresholds and ticks", "why_tests_cant": "must hold for every input, not a sample", "anchors": ["larreco/HitFinder/TTHitFinder_module.cc: produce"]}
{"id": "C306", "title": "TT hit finder: the charge is that of the ticks around the hit", "statement": "The window of which a hit has the charge is centred on the time of the hit", "quantifier": "all signals, widths, thresholds and ticks", "why_tests_cant": "must hold for every input, not a sample", "anchors": ["larreco/HitFinder/TTHitFinder_module.cc: produce"]}
{"id": "C307", "title": "Raw hit finder, collection: hits are the runs above threshold", "statement": "The hits of a collection channel are, in time order and each once, the longest runs of at least two ticks above threshold", "quantifier": "all waveforms and thresholds", "why_tests_cant": "must hold for every input, not a sample", "anchors": ["larreco/HitFinder/RawHitFinder_module.cc: produce"]}
{"id": "C308", "title": "Raw hit finder, collection: peak and charge", "statement": "The peak is the largest value of the run at its first such tick; the charge is the sum of the waveform over the widened run", "quantifier": "all waveforms, thresholds and tail settings", "why_tests_cant": "must hold for every input, not a sample", "anchors": ["larreco/HitFinder/RawHitFinder_module.cc: produce"]}
{"id": "C309", "title": "Raw hit finder, collection: the width is a number", "statement": "The square of the width of a hit is not negative", "quantifier": "all waveforms, thresholds and tail settings", "why_tests_cant": "must hold for every input, not a sample", "anchors": ["larreco/HitFinder/RawHitFinder_module.cc: produce"]}
{"id": "C310", "title": "Raw hit finder, collection: the summed charge is that of the run", "statement": "The summed ADC of a hit is the sum over all its ticks above threshold", "quantifier": "all waveforms and thresholds", "why_tests_cant": "must hold for every input, not a sample", "anchors": ["larreco/HitFinder/RawHitFinder_module.cc: produce"]}
{"id": "C311", "title": "Raw hit finder, induction: hits are dips", "statement": "There are hits exactly if two neighbouring ticks, not the first, are below minus the threshold; each hit begins and ends in the waveform, start before end, holds a dip of at least two ticks after its zero crossing, and its height is the depth of the dip", "quantifier": "all waveforms, thresholds that are not negative and cutoffs", "why_tests_cant": "must hold for every input, not a sample", "anchors": ["larreco/HitFinder/RawHitFinder_module.cc: produce"]}
{"id": "C312", "title": "Raw hit finder, induction: the charge is that of the dip", "statement": "The charge of a hit is the sum of the depths of the ticks of its dip", "quantifier": "all waveforms, thresholds that are not negative and cutoffs", "why_tests_cant": "must hold for every input, not a sample", "anchors": ["larreco/HitFinder/RawHitFinder_module.cc: produce"]}
{"id": "C313", "title": "Raw hit finder, induction: the time is that of the zero crossing", "statement": "The time of a hit is that of the zero crossing before its dip, by interpolation, and different hits have different, increasing times", "quantifier": "all waveforms, thresholds that are not negative and cutoffs", "why_tests_cant": "must hold for every input, not a sample", "anchors": ["larreco/HitFinder/RawHitFinder_module.cc: produce"]}
{"id": "C314", "title": "CC hit finder: the regions searched for hits are the runs above threshold", "statement": "The regions of a wire are exactly the longest runs of ticks above the threshold, of more than the asked-for number of ticks, after the first tick below the threshold and ended by a tick at least three before the end of the signal, up to the first run of more than 1000 ticks", "quantifier": "all signals of 2 to 65537 ticks, thresholds and smallest widths", "why_tests_cant": "must hold for every input, not a sample", "anchors": ["larreco/RecoAlg/CCHitFinderAlg.cxx: RunCCHitFinder"]}
{"id": "C315", "title": "CC hit finder: each region gives a hit", "statement": "Every region above threshold gives at least one hit", "quantifier": "all signals, settings and fit results", "why_tests_cant": "must hold for every input, not a sample", "anchors": ["larreco/RecoAlg/CCHitFinderAlg.cxx: RunCCHitFinder", "larreco/RecoAlg/CCHitFinderAlg.cxx: FitNG", "larreco/RecoAlg/CCHitFinderAlg.cxx: MakeCrudeHit", "larreco/RecoAlg/CCHitFinderAlg.cxx: StoreHits"]}
{"id": "C316", "title": "CC hit finder: the hits of a region belong together", "statement": "The hits of a region are on its channel, have its first and last tick, are numbered in order from 0, know how many they are and have the same quality of fit", "quantifier": "all regions, settings, fit results and states of the object", "why_tests_cant": "must hold for every input, not a sample", "anchors": ["larreco/RecoAlg/CCHitFinderAlg.cxx: StoreHits", "larreco/RecoAlg/CCHitFinderAlg.cxx: RunCCHitFinder"]}
{"id": "C317", "title": "CC hit finder: fitted hits are sane and in order", "statement": "The hits of a region come from a fit better than the limit, at least one for each bump, each with at least the smallest height, half to five times the expected width, a peak in the region, and at least two ticks after the one before; or there is one hit marked as crude", "quantifier": "all regions, fit results, and settings with a limit on the chi square of at most 9999", "why_tests_cant": "must hold for every input, not a sample", "anchors": ["larreco/RecoAlg/CCHitFinderAlg.cxx: FitNG", "larreco/RecoAlg/CCHitFinderAlg.cxx: RunCCHitFinder"]}
{"id": "C318", "title": "CC hit finder: the summed charges of the hits of a region add up to its samples", "statement": "The summed charges stored in the hits of a region add up to the sum of the samples of the region", "quantifier": "all regions of at least two and fewer than 1000 positive samples, all fit results and settings", "why_tests_cant": "must hold for every input, not a sample", "anchors": ["larreco/RecoAlg/CCHitFinderAlg.cxx: StoreHits"]}
{"id": "C319", "title": "CC hit finder: a crude hit is the mean of its region", "statement": "If no fit is accepted the hit has the sum of the samples as charge, a positive width, and the mean of the ticks weighted with the samples as time, in the region", "quantifier": "all regions of at least two and fewer than 1000 positive samples", "why_tests_cant": "must hold for every input, not a sample", "anchors": ["larreco/RecoAlg/CCHitFinderAlg.cxx: MakeCrudeHit"]}
{"id": "C320", "title": "CC hit finder: no more fits are accepted than tried", "statement": "For each number of Gaussians, at most as many fits are counted as accepted as are counted as tried", "quantifier": "all wires, settings, fit results and histories", "why_tests_cant": "must hold for every input, not a sample", "anchors": ["larreco/RecoAlg/CCHitFinderAlg.cxx: RunCCHitFinder", "larreco/RecoAlg/CCHitFinderAlg.cxx: FitNG", "larreco/RecoAlg/CCHitFinderAlg.h: FitStats_t"]}
{"id": "C321", "title": "CC hit finder: hits do not depend on what was done before", "statement": "The hits are those of the regions of the good wires, one after the other, as a new object would find them region by region, up to the first wire of a plane without settings", "quantifier": "all lists of wires, states of the object, fit results, and settings with a limit on the chi square of at most 9999", "why_tests_cant": "must hold for every input, not a sample", "anchors": ["larreco/RecoAlg/CCHitFinderAlg.cxx: RunCCHitFinder"]}
{"id": "C322", "title": "Line merger: merging loses no cluster and no hit", "statement": "Each cluster of the three views is part of exactly one output cluster, and the output clusters hold exactly the hits of the clusters they are made of", "quantifier": "all cluster lists, windows, slopes and arctangents", "why_tests_cant": "must hold for every input, not a sample", "anchors": ["larreco/ClusterFinder/LineMerger_module.cc: produce"]}
{"id": "C323", "title": "Line merger: nothing is doubled", "statement": "No hit occurs more often in the output than in the input, and the output clusters keep numbers of input clusters of their view, in order", "quantifier": "all cluster lists and settings", "why_tests_cant": "must hold for every input, not a sample", "anchors": ["larreco/ClusterFinder/LineMerger_module.cc: produce"]}
{"id": "C324", "title": "Line merger: a merged cluster spans its parts", "statement": "A merged cluster starts where the part with the lowest start wire starts and ends where the part with the highest end wire ends", "quantifier": "all cluster lists and settings", "why_tests_cant": "must hold for every input, not a sample", "anchors": ["larreco/ClusterFinder/LineMerger_module.cc: produce", "larreco/ClusterFinder/LineMerger_module.cc: ClusterAssocUtil/ClusterMerger"]}
{"id": "C325", "title": "Line merger: the hits of a merged cluster stay in order", "statement": "The hits of each part are consecutive in the merged cluster, and parts follow each other in the order of their wires", "quantifier": "all cluster lists and settings", "why_tests_cant": "must hold for every input, not a sample", "anchors": ["larreco/ClusterFinder/LineMerger_module.cc: produce"]}
{"id": "C326", "title": "Line merger: the matching of two clusters", "statement": "Two clusters match if and only if their slopes at facing ends are compatible and the end of one is in the window around the start of the other; the criterion is symmetric", "quantifier": "all pairs of clusters and settings", "why_tests_cant": "must hold for every input, not a sample", "anchors": ["larreco/ClusterFinder/LineMerger_module.cc: SlopeCompatibility", "larreco/ClusterFinder/LineMerger_module.cc: EndpointCompatibility"]}
{"id": "C327", "title": "Line merger: an isolated cluster comes out unchanged", "statement": "A cluster with no other cluster of its view with an end in its window is output unchanged", "quantifier": "all cluster lists without doubles and settings", "why_tests_cant": "must hold for every input, not a sample", "anchors": ["larreco/ClusterFinder/LineMerger_module.cc: produce"]}
{"id": "C328", "title": "Line merger: merging is complete", "statement": "No two output clusters of a view match any more, and the result does not depend on the order of the input", "quantifier": "all cluster lists and settings", "why_tests_cant": "must hold for every input, not a sample", "anchors": ["larreco/ClusterFinder/LineMerger_module.cc: produce"]}
{"id": "C329", "title": "Small clusters: every hit is in exactly one cluster", "statement": "The clusters put in the event hold every hit of the event exactly once; none is empty and each is of one plane", "quantifier": "all hit lists of valid planes, distances, radii and numbers of hits", "why_tests_cant": "must hold for every input, not a sample", "anchors": ["larreco/RecoAlg/SmallClusterFinderAlg.cxx: FindSmallClusters", "larreco/ClusterFinder/SmallClusterFinder_module.cc: produce"]}
{"id": "C330", "title": "Small clusters: the finder ends", "statement": "The finder ends for every event", "quantifier": "all hit lists and settings", "why_tests_cant": "must hold for every input, not a sample", "anchors": ["larreco/RecoAlg/SmallClusterFinderAlg.cxx: FindSmallClusters", "larreco/RecoAlg/SmallClusterFinderAlg.cxx: SelectLocalHitlist"]}
{"id": "C331", "title": "Small clusters: which hits are small", "statement": "A hit is in a small cluster if and only if fewer hits than the number configured, itself included, are within the radius of it in its plane; otherwise it is in the leftover cluster of its plane", "quantifier": "all hit lists and settings", "why_tests_cant": "must hold for every input, not a sample", "anchors": ["larreco/RecoAlg/SmallClusterFinderAlg.cxx: CreateHighHitlist", "larreco/ClusterFinder/SmallClusterFinder_module.cc: produce"]}
{"id": "C332", "title": "Small clusters: shape of a small cluster", "statement": "The hits of a small cluster are within the radius of its first hit, fewer than the number configured, and no hit of a later cluster of the plane is within the radius of that hit; hits within the radius of one another, and only hits of one TPC, are in one cluster", "quantifier": "all hit lists with a positive radius", "why_tests_cant": "must hold for every input, not a sample", "anchors": ["larreco/RecoAlg/SmallClusterFinderAlg.cxx: FindSmallClusters"]}
{"id": "C333", "title": "Small clusters: cluster numbers are unique", "statement": "The numbers of the clusters of an event are distinct", "quantifier": "all hit lists and settings", "why_tests_cant": "must hold for every input, not a sample", "anchors": ["larreco/ClusterFinder/SmallClusterFinder_module.cc: produce"]}
{"id": "C334", "title": "Small clusters: each event gets its products", "statement": "Every event gets the cluster collection and the associations the module declares", "quantifier": "all events", "why_tests_cant": "must hold for every input, not a sample", "anchors": ["larreco/ClusterFinder/SmallClusterFinder_module.cc: produce"]}
{"id": "C335", "title": "Shower energy: linear in the corrected charge of one plane", "statement": "The energy is the linear function of the plane of the lifetime-corrected charge of the hits of that plane, 0 for a plane without function; it does not depend on the order of hits or on other planes, does not go down when hits are added, and is additive up to the intercept", "quantifier": "all hit lists, planes, linear functions and lifetimes", "why_tests_cant": "must hold for every input, not a sample", "anchors": ["larreco/RecoAlg/ShowerEnergyAlg.cxx: ShowerEnergy"]}
{"id": "C336", "title": "Cluster merging criteria are symmetric", "statement": "Whether a merging or prohibiting algorithm accepts two clusters does not depend on which is named first", "quantifier": "all pairs of clusters and settings", "why_tests_cant": "must hold for every input, not a sample", "anchors": ["larreco/RecoAlg/CMTool/CMTAlgMerge/CBAlgoAngleSeparate.cxx: Bool", "larreco/RecoAlg/CMTool/CMTAlgMerge/CBAlgoCenterOfMass.cxx: Bool", "larreco/RecoAlg/CMTool/CMTAlgMerge/CBAlgoStartTrack.cxx: Bool", "larreco/RecoAlg/CMTool/CMTAlgMerge/CBAlgoMergeTinyWithBig.cxx: Bool", "larreco/RecoAlg/CMTool/CMTAlgMerge/CBAlgoStartNearEnd.cxx: Bool"]}
{"id": "C337", "title": "Angle compatibility", "statement": "Two clusters of enough hits and known angles are compatible if and only if their directions differ by less than the cut, up to half a turn if that is allowed", "quantifier": "all pairs of clusters and settings", "why_tests_cant": "must hold for every input, not a sample", "anchors": ["larreco/RecoAlg/CMTool/CMTAlgMerge/CBAlgoAngleCompat.cxx: Bool"]}
{"id": "C338", "title": "Angle compatibility, incompatibility and alignment agree", "statement": "With the same settings two long clusters with known angles are either compatible or incompatible, never both; alignment is compatibility with the fixed cut", "quantifier": "all pairs of clusters and settings", "why_tests_cant": "must hold for every input, not a sample", "anchors": ["larreco/RecoAlg/CMTool/CMTAlgMerge/CBAlgoAngleCompat.cxx: Bool", "larreco/RecoAlg/CMTool/CMTAlgMerge/CBAlgoAngleIncompat.cxx: Bool", "larreco/RecoAlg/CMTool/CMTAlgMerge/CBAlgoAngleAlign.cxx: Bool"]}
{"id": "C339", "title": "Small clusters are merged into big ones only", "statement": "Two clusters are merged if and only if one is small, the other is big, and corners of their polygons are close", "quantifier": "all pairs of clusters and settings", "why_tests_cant": "must hold for every input, not a sample", "anchors": ["larreco/RecoAlg/CMTool/CMTAlgMerge/CBAlgoMergeTinyWithBig.cxx: Bool"]}
{"id": "C340", "title": "Distance of the centre of a cluster from another one", "statement": "The distance compared with the cut is the least distance of the centre from the segment from start to end of the other cluster", "quantifier": "all points and segments", "why_tests_cant": "must hold for every input, not a sample", "anchors": ["larreco/RecoAlg/CMTool/CMTAlgMerge/CBAlgoCenterOfMass.cxx: ShortestDistanceSquared", "larreco/RecoAlg/CMTool/CMTAlgMerge/CBAlgoCenterOfMassSmall.cxx: ShortestDistanceSquared"]}
{"id": "C341", "title": "The centre of charge lies among the hits", "statement": "The centre of charge of a cluster is within every box of wires and times that holds its hits, and does not depend on their order", "quantifier": "all hit lists with non-negative charges, not all zero", "why_tests_cant": "must hold for every input, not a sample", "anchors": ["larreco/RecoAlg/CMTool/CMTAlgMerge/CBAlgoCenterOfMass.cxx: Bool", "larreco/RecoAlg/CMTool/CMTAlgMerge/CBAlgoCenterOfMassSmall.cxx: Bool"]}
{"id": "C342", "title": "Matching by charge", "statement": "The score of three clusters is the product of their charges over the largest, from 0 to 1, or -1 at or below the cut, for two clusters, or with a negative charge; it does not depend on the order", "quantifier": "all cluster lists and cuts", "why_tests_cant": "must hold for every input, not a sample", "anchors": ["larreco/RecoAlg/CMTool/CMTAlgMatch/CFAlgoQRatio.cxx: Float"]}
{"id": "C343", "title": "Matching by wires", "statement": "The score of three clusters is the product of their lengths in wires over the longest, between 0 and 1, or -1 at or below the cut; it does not depend on the order of the clusters", "quantifier": "all cluster lists and cuts", "why_tests_cant": "must hold for every input, not a sample", "anchors": ["larreco/RecoAlg/CMTool/CMTAlgMatch/CFAlgoZOverlap.cxx: Float"]}
{"id": "C344", "title": "Matching by time", "statement": "The score of the clusters is -1 or above the cut and from 0 to 1; it depends neither on the order of the clusters nor on a common shift in time", "quantifier": "all cluster lists, cuts and time windows", "why_tests_cant": "must hold for every input, not a sample", "anchors": ["larreco/RecoAlg/CMTool/CMTAlgMatch/CFAlgoTimeOverlap.cxx: Float"]}
{"id": "C345", "title": "Matching by shower shape", "statement": "The score is 1 if and only if all clusters pass the cuts on opening angle over length and length over width, and the opening angles of the set pass the last one; it does not depend on the order", "quantifier": "all lists of clusters of positive length and width", "why_tests_cant": "must hold for every input, not a sample", "anchors": ["larreco/RecoAlg/CMTool/CMTAlgMatch/CFAlgoShowerCompat.cxx: Float"]}
{"id": "C346", "title": "Priorities of clusters", "statement": "A cluster is left out if and only if it is below the (non-negative) cut; of two others the larger one comes first", "quantifier": "all clusters and non-negative cuts", "why_tests_cant": "must hold for every input, not a sample", "anchors": ["larreco/RecoAlg/CMTool/CMTAlgPriority/CPAlgoNHits.cxx: Priority", "larreco/RecoAlg/CMTool/CMTAlgPriority/CPAlgoQSum.cxx: Priority", "larreco/RecoAlg/CMTool/CMTAlgPriority/CPAlgoPolyArea.cxx: Priority", "larreco/RecoAlg/CMTool/CMTAlgPriority/CPAlgoIgnoreTracks.cxx: Priority"]}
{"id": "C347", "title": "Peak candidates of the long-drift hit finder", "statement": "The peak candidates of a region are in order of time, do not share ticks, lie within the region, and each has its maximum, at least the threshold, among its ticks", "quantifier": "all signals, thresholds and region lengths", "why_tests_cant": "must hold for every input, not a sample", "anchors": ["larreco/HitFinder/DPRawHitFinder_module.cc: findCandidatePeaks"]}
{"id": "C348", "title": "The signal is positive within a candidate", "statement": "The signal is positive on all ticks of a candidate between its first and last", "quantifier": "all signals, settings and regions", "why_tests_cant": "must hold for every input, not a sample", "anchors": ["larreco/HitFinder/DPRawHitFinder_module.cc: findCandidatePeaks"]}
{"id": "C349", "title": "No peak is missed", "statement": "Every tick with signal at or above the threshold is in a candidate", "quantifier": "all signals, settings and regions", "why_tests_cant": "must hold for every input, not a sample", "anchors": ["larreco/HitFinder/DPRawHitFinder_module.cc: findCandidatePeaks"]}
{"id": "C350", "title": "Groups of peaks", "statement": "Every candidate is in exactly one group, in order; a group reaches from the start of its first to the end of its last candidate; every peak of a group stands for consecutive candidates and has the highest of their maxima", "quantifier": "all candidate lists and settings", "why_tests_cant": "must hold for every input, not a sample", "anchors": ["larreco/HitFinder/DPRawHitFinder_module.cc: mergeCandidatePeaks"]}
{"id": "C351", "title": "When neighbours are in one group", "statement": "Two neighbouring candidates are in the same group if and only if they are close enough and the signal between them does not fall below the limit", "quantifier": "all candidate lists and settings", "why_tests_cant": "must hold for every input, not a sample", "anchors": ["larreco/HitFinder/DPRawHitFinder_module.cc: mergeCandidatePeaks"]}
{"id": "C352", "title": "Fluctuations of a peak", "statement": "The number of fluctuations of a peak is the number of ticks, up to the first below 5 ADC on either side of the maximum, at which the signal rises away from the maximum; a pulse that rises to its maximum and then falls has none", "quantifier": "all signals and ticks", "why_tests_cant": "must hold for every input, not a sample", "anchors": ["larreco/HitFinder/DPRawHitFinder_module.cc: EstimateFluctuations"]}
{"id": "C353", "title": "Additional peaks divide their peak", "statement": "Adding a peak or splitting one gives peaks in order that do not share ticks and cover the same ticks as before", "quantifier": "all peak lists, peak numbers and positions", "why_tests_cant": "must hold for every input, not a sample", "anchors": ["larreco/HitFinder/DPRawHitFinder_module.cc: AddPeak", "larreco/HitFinder/DPRawHitFinder_module.cc: SplitPeak"]}
{"id": "C354", "title": "Refitting only improves", "statement": "The peaks used after refitting are in order, do not share ticks, cover the same ticks as before; their fit is at least as good; at most three times the original number of peaks is used", "quantifier": "all fits, groups and settings", "why_tests_cant": "must hold for every input, not a sample", "anchors": ["larreco/HitFinder/DPRawHitFinder_module.cc: produce", "larreco/HitFinder/DPRawHitFinder_module.cc: FindPeakWithMaxDeviation"]}
{"id": "C355", "title": "Hits of a long pulse", "statement": "A group that is not fitted is divided completely into hits of the set width, at most the set number, independent of other groups", "quantifier": "all groups and settings", "why_tests_cant": "must hold for every input, not a sample", "anchors": ["larreco/HitFinder/DPRawHitFinder_module.cc: produce"]}
{"id": "C356", "title": "Noise groups are left out", "statement": "A group has no hits if it is too short, or its charge or its mean is too small", "quantifier": "all groups, signals and settings", "why_tests_cant": "must hold for every input, not a sample", "anchors": ["larreco/HitFinder/DPRawHitFinder_module.cc: produce"]}
{"id": "C357", "title": "Parameters of the fit function", "statement": "The term of a peak uses the parameters that are set and read for this peak, and those of no other", "quantifier": "all peak numbers", "why_tests_cant": "must hold for every input, not a sample", "anchors": ["larreco/HitFinder/DPRawHitFinder_module.cc: CreateFitFunction", "larreco/HitFinder/DPRawHitFinder_module.cc: produce"]}
{"id": "C358", "title": "Seeds and limits of the peak time", "statement": "The first guess of each fitted peak time lies between its limits, and the limits of a peak are ordered", "quantifier": "all peak lists in order and fit ranges", "why_tests_cant": "must hold for every input, not a sample", "anchors": ["larreco/HitFinder/DPRawHitFinder_module.cc: FitExponentials"]}
{"id": "C359", "title": "Averaged bins", "statement": "The averaged signal at a tick is the mean of the signal over the window around it; a constant signal stays as it is", "quantifier": "all signals and windows", "why_tests_cant": "must hold for every input, not a sample", "anchors": ["larreco/HitFinder/DPRawHitFinder_module.cc: doBinAverage"]}
{"id": "C360", "title": "Hits of a region", "statement": "The hits of a region are in order, do not overlap, lie in the region; each has as summed ADC the sum of the signal over its ticks, the number of hits of its group as multiplicity, and the hits of a group are numbered from 0", "quantifier": "all signals, fits, settings and regions", "why_tests_cant": "must hold for every input, not a sample", "anchors": ["larreco/HitFinder/DPRawHitFinder_module.cc: produce"]}
{"id": "C361", "title": "Scaling of ADC samples", "statement": "Scaling a vector of samples scales each sample on its own: the value is in the output range, is the end of the range outside the ADC limits, is linear between them and grows with the sample; the zero level is the scaled value of a sample of 0", "quantifier": "all samples and all settings with AdcMin < AdcMax and OutMin ≠ OutMax", "why_tests_cant": "must hold for every input, not a sample", "anchors": ["larreco/RecoAlg/ImagePatternAlgs/DataProvider/DataProviderAlg.cxx: scaleAdcSamples"]}
{"id": "C362", "title": "Downscaling by maximum", "statement": "With maximum pooling pixel i is the scaled value of the largest corrected sample of its window of ticks", "quantifier": "all signals, lifetime tables, window widths and sizes", "why_tests_cant": "must hold for every input, not a sample", "anchors": ["larreco/RecoAlg/ImagePatternAlgs/DataProvider/DataProviderAlg.cxx: downscaleMax"]}
{"id": "C363", "title": "Downscaling by mean", "statement": "With averaging pixel i is the scaled mean of the corrected samples of its window, which lies between the smallest and the largest of them", "quantifier": "all signals, lifetime tables, window widths and sizes", "why_tests_cant": "must hold for every input, not a sample", "anchors": ["larreco/RecoAlg/ImagePatternAlgs/DataProvider/DataProviderAlg.cxx: downscaleMean"]}
{"id": "C364", "title": "Downscaling by mean around the maximum", "statement": "With the mean around the maximum pixel i is the scaled mean of the first largest corrected sample of its window and its neighbours, and is not above the maximum of the window; no table is read beyond its end", "quantifier": "all signals, lifetime tables, window widths and sizes", "why_tests_cant": "must hold for every input, not a sample", "anchors": ["larreco/RecoAlg/ImagePatternAlgs/DataProvider/DataProviderAlg.cxx: downscaleMaxMean"]}
{"id": "C365", "title": "Image of a plane", "statement": "The image has one row per wire, all of the same length; the row of a wire is the (downscaled) signal of the last good channel with enough samples of that wire and the zero level if there is none; the sums run over the samples of 10 or more; the call fails exactly if there is no signal", "quantifier": "all wires, channels and signals", "why_tests_cant": "must hold for every input, not a sample", "anchors": ["larreco/RecoAlg/ImagePatternAlgs/DataProvider/DataProviderAlg.cxx: setWireDriftData", "larreco/RecoAlg/ImagePatternAlgs/DataProvider/DataProviderAlg.cxx: setWireData"]}
{"id": "C366", "title": "Pixel of a wire and a tick", "statement": "The pixel of a wire and tick is that of its row at the window of the tick, and 0 outside the image", "quantifier": "all images, wires and ticks", "why_tests_cant": "must hold for every input, not a sample", "anchors": ["larreco/RecoAlg/ImagePatternAlgs/DataProvider/DataProviderAlg.h: getPixelOrZero"]}
{"id": "C367", "title": "Maximum around a pixel", "statement": "The maximum around a pixel is the largest of 0 and the pixels of the image within the distance", "quantifier": "all images, positions and radii", "why_tests_cant": "must hold for every input, not a sample", "anchors": ["larreco/RecoAlg/ImagePatternAlgs/DataProvider/DataProviderAlg.cxx: poolMax"]}
{"id": "C368", "title": "Blurring across wires", "statement": "Blurring leaves the wires near the edges as they are and replaces every other pixel with the sum of the pixels of the same drift around it weighted with the kernel; a normalised kernel leaves an image of equal wires unchanged; nothing outside the image is read", "quantifier": "all images and kernels", "why_tests_cant": "must hold for every input, not a sample", "anchors": ["larreco/RecoAlg/ImagePatternAlgs/DataProvider/DataProviderAlg.cxx: applyBlur"]}
{"id": "C369", "title": "Patches of the downscaled image", "statement": "A patch around a wire and drift has the pixels of the image there and the zero level outside the image", "quantifier": "all images, positions and patch sizes", "why_tests_cant": "must hold for every input, not a sample", "anchors": ["larreco/RecoAlg/ImagePatternAlgs/DataProvider/DataProviderAlg.cxx: patchFromDownsampledView", "larreco/RecoAlg/ImagePatternAlgs/DataProvider/DataProviderAlg.h: getPatch"]}
{"id": "C370", "title": "Patches of the full image", "statement": "A patch made from the image in full resolution has, per wire, the downscaled window around the drift, padded with the zero level outside the image", "quantifier": "all images, positions, sizes and modes", "why_tests_cant": "must hold for every input, not a sample", "anchors": ["larreco/RecoAlg/ImagePatternAlgs/DataProvider/DataProviderAlg.cxx: patchFromOriginalView"]}
{"id": "C371", "title": "Projection onto a line", "statement": "The projection of a point onto the line through two points lies on the line at the returned fraction, is the only nearest point of the line, is orthogonal to it, and the fraction of any point of the line is its own", "quantifier": "all points and all lines through two different points", "why_tests_cant": "must hold for every input, not a sample", "anchors": ["larreco/RecoAlg/PMAlg/Utilities.cxx: GetSegmentProjVector", "larreco/RecoAlg/PMAlg/Utilities.cxx: GetProjectionToSegment"]}
{"id": "C372", "title": "Point nearest to lines", "statement": "The point found for lines is the only one that minimises the sum of squared distances to them, the returned number is the mean of these; parallel lines and fewer than two lines are reported by 1e12 and -1", "quantifier": "all lists of lines", "why_tests_cant": "must hold for every input, not a sample", "anchors": ["larreco/RecoAlg/PMAlg/Utilities.cxx: SolveLeastSquares3D"]}
{"id": "C373", "title": "Radius of hits", "statement": "Every hit is within the radius of the mean of the hits and some hit is at that distance; the radius is 0 for fewer than five hits unless the exact one is asked for", "quantifier": "all lists of hits", "why_tests_cant": "must hold for every input, not a sample", "anchors": ["larreco/RecoAlg/PMAlg/Utilities.cxx: GetHitsRadius3D", "larreco/RecoAlg/PMAlg/Utilities.cxx: GetHitsRadius2D"]}
{"id": "C374", "title": "Counts and sums by view", "statement": "With an unknown view all hits are counted and summed, with a view those of the view; the three views together give all; order does not matter; lists add up", "quantifier": "all lists of hits and all views", "why_tests_cant": "must hold for every input, not a sample", "anchors": ["larreco/RecoAlg/PMAlg/Utilities.cxx: GetHitsCount", "larreco/RecoAlg/PMAlg/Utilities.cxx: GetSummedADC", "larreco/RecoAlg/PMAlg/Utilities.cxx: GetSummedAmpl"]}
{"id": "C375", "title": "Orders used for sorting", "statement": "The orders of hits along a track, by distance, of points along a segment and from a centre are strict weak orders that order by the value named", "quantifier": "all hits and points, null pointers included", "why_tests_cant": "must hold for every input, not a sample", "anchors": ["larreco/RecoAlg/PMAlg/Utilities.cxx: bTrajectory3DOrderLess", "larreco/RecoAlg/PMAlg/Utilities.h: bSegmentProjLess, bDistCenterLess2D, bDistCenterLess3D"]}
{"id": "C376", "title": "Distance to a segment", "statement": "The squared distance to a segment is that to its nearest point, or 1.0001 times it at an end; for very short segments that to its middle; it is never below the distance to the segment, never negative, and does not depend on the order of the ends", "quantifier": "all points and segments", "why_tests_cant": "must hold for every input, not a sample", "anchors": ["larreco/RecoAlg/PMAlg/PmaSegment3D.cxx: GetDist2"]}
{"id": "C377", "title": "Projection to a segment through a view", "statement": "The 3D point given for a point of a view is at the fraction of the segment at which the projected segment is nearest; a hit is given projection and point at the fraction it is told", "quantifier": "all segments, projections and points", "why_tests_cant": "must hold for every input, not a sample", "anchors": ["larreco/RecoAlg/PMAlg/PmaSegment3D.cxx: GetProjection", "larreco/RecoAlg/PMAlg/PmaSegment3D.cxx: SetProjection", "larreco/RecoAlg/PMAlg/PmaSegment3D.cxx: GetUnconstrainedProj3D"]}
{"id": "C378", "title": "Weights of hits", "statement": "The weight of a hit is in (0,1], grows with its amplitude relative to the largest in the view among the element and all its neighbours, and is 1 for the largest", "quantifier": "all elements, neighbours and hits", "why_tests_cant": "must hold for every input, not a sample", "anchors": ["larreco/RecoAlg/PMAlg/PmaElement3D.cxx: UpdateHitParams"]}
{"id": "C379", "title": "Thinning of hits", "statement": "At most the given number of hits per view stay in use; an element with no more hits than that keeps them all; the function reports a change exactly when there is one, and changes nothing else", "quantifier": "all elements, hits, numbers of neighbouring hits and maxima", "why_tests_cant": "must hold for every input, not a sample", "anchors": ["larreco/RecoAlg/PMAlg/PmaElement3D.cxx: SelectRndHits", "larreco/RecoAlg/PMAlg/PmaElement3D.cxx: SelectAllHits"]}
{"id": "C380", "title": "Summary of a cluster", "statement": "The summary kept of a cluster has the ranges of wires and of start, peak and end times of its hits after the correction by the offset of the plane, the number of hits and the sum of their charges", "quantifier": "all clusters, offsets and hits", "why_tests_cant": "must hold for every input, not a sample", "anchors": ["larreco/RecoAlg/ClusterMatchAlg.cxx: AppendClusterInfo", "larreco/RecoAlg/ClusterMatchAlg.h: cluster_match_info"]}
{"id": "C381", "title": "Time overlap of two clusters", "statement": "The rough time test passes exactly if twice the common part of the time ranges (earliest start to latest end) is more than the cut times the sum of their lengths; it does not depend on the order, and clusters without a common time fail", "quantifier": "all pairs of clusters and all cuts", "why_tests_cant": "must hold for every input, not a sample", "anchors": ["larreco/RecoAlg/ClusterMatchAlg.cxx: Match_RoughTime"]}
{"id": "C382", "title": "Charge test", "statement": "The charge test passes exactly if the charges differ by less than the given fraction, in either order of the clusters", "quantifier": "all pairs of clusters and all cuts", "why_tests_cant": "must hold for every input, not a sample", "anchors": ["larreco/RecoAlg/ClusterMatchAlg.cxx: Match_SumCharge"]}
{"id": "C383", "title": "Test of the beam direction", "statement": "The rough z test passes exactly if the first wires cross, the last wires cross, and the last do so at the larger z", "quantifier": "all pairs of clusters and all wire geometries", "why_tests_cant": "must hold for every input, not a sample", "anchors": ["larreco/RecoAlg/ClusterMatchAlg.cxx: Match_RoughZ"]}
{"id": "C384", "title": "Matches of two planes", "statement": "The matched clusters of two planes are exactly the pairs that pass all tests switched on, in order; the clusters received are then forgotten", "quantifier": "all sets of clusters and all settings", "why_tests_cant": "must hold for every input, not a sample", "anchors": ["larreco/RecoAlg/ClusterMatchAlg.cxx: MatchTwoPlanes"]}
{"id": "C385", "title": "Matches of three planes", "statement": "The matched clusters of three planes are exactly the triples that pass all tests switched on, in order", "quantifier": "all sets of clusters and all settings", "why_tests_cant": "must hold for every input, not a sample", "anchors": ["larreco/RecoAlg/ClusterMatchAlg.cxx: MatchThreePlanes"]}
{"id": "C386", "title": "Debug mode of the matching", "statement": "The debug mode, which runs all tests for each pair, does not change the matches", "quantifier": "all sets of clusters and all settings", "why_tests_cant": "must hold for every input, not a sample", "anchors": ["larreco/RecoAlg/ClusterMatchAlg.cxx: MatchTwoPlanes", "larreco/RecoAlg/ClusterMatchAlg.cxx: MatchThreePlanes", "larreco/RecoAlg/ClusterMatchAlg.cxx: Match_SpacePoint"]}
{"id": "C387", "title": "Third plane in the matching of two planes", "statement": "Matching two planes does not depend on the clusters of the third plane", "quantifier": "all sets of clusters and all settings", "why_tests_cant": "must hold for every input, not a sample", "anchors": ["larreco/RecoAlg/ClusterMatchAlg.cxx: MatchTwoPlanes", "larreco/RecoAlg/ClusterMatchAlg.cxx: Match_SpacePoint"]}
{"id": "C388", "title": "Matching of later events", "statement": "The matches of an event do not depend on earlier events", "quantifier": "all sequences of calls", "why_tests_cant": "must hold for every input, not a sample", "anchors": ["larreco/RecoAlg/ClusterMatchAlg.cxx: ClearEventInfo", "larreco/RecoAlg/ClusterMatchAlg.cxx: ClearMatchInputInfo", "larreco/RecoAlg/ClusterMatchAlg.cxx: MatchTwoPlanes", "larreco/RecoAlg/ClusterMatchAlg.cxx: MatchThreePlanes"]}
{"id": "C389", "title": "Space point test", "statement": "The space point test makes space points of all hits of the clusters and passes exactly if there are at least the given number", "quantifier": "all clusters, settings and space point algorithms", "why_tests_cant": "must hold for every input, not a sample", "anchors": ["larreco/RecoAlg/ClusterMatchAlg.cxx: Match_SpacePoint"]}
{"id": "C390", "title": "Close tracks in either order", "statement": "Whether two tracks are close does not depend on the order in which they are given", "quantifier": "all pairs of tracks", "why_tests_cant": "must hold for every input, not a sample", "anchors": ["larreco/VertexFinder/PrimaryVertexFinder_module.cc: produce"]}
{"id": "C391", "title": "Closest points of two tracks", "statement": "Two tracks are taken to be close exactly if the closest points of their lines are nearer than the window and the point on the first is that near to its start; the points used are these closest points; parallel tracks are never close", "quantifier": "all pairs of tracks with unit directions and all windows", "why_tests_cant": "must hold for every input, not a sample", "anchors": ["larreco/VertexFinder/PrimaryVertexFinder_module.cc: gammavalue", "larreco/VertexFinder/PrimaryVertexFinder_module.cc: alphavalue", "larreco/VertexFinder/PrimaryVertexFinder_module.cc: MinDist", "larreco/VertexFinder/PrimaryVertexFinder_module.cc: PointOnExtendedTrack"]}
{"id": "C392", "title": "Tracks far from all others", "statement": "A track that is not close to any other is in a vertex of its own and in no other", "quantifier": "all sets of tracks and all windows", "why_tests_cant": "must hold for every input, not a sample", "anchors": ["larreco/VertexFinder/PrimaryVertexFinder_module.cc: produce"]}
{"id": "C393", "title": "All tracks in vertices", "statement": "Every track is in a vertex; no vertex is empty or has a track twice; each vertex has one point per track", "quantifier": "all sets of tracks and all windows", "why_tests_cant": "must hold for every input, not a sample", "anchors": ["larreco/VertexFinder/PrimaryVertexFinder_module.cc: produce", "larreco/VertexFinder/PrimaryVertexFinder_module.cc: IsInVertexCollection", "larreco/VertexFinder/PrimaryVertexFinder_module.cc: IndexInVertexCollection", "larreco/VertexFinder/PrimaryVertexFinder_module.cc: IsInNewVertex"]}
{"id": "C394", "title": "Close tracks share a vertex", "statement": "Two close tracks have a vertex in common, and each track of a vertex with several tracks is close to another one of it", "quantifier": "all sets of tracks and all windows", "why_tests_cant": "must hold for every input, not a sample", "anchors": ["larreco/VertexFinder/PrimaryVertexFinder_module.cc: produce", "larreco/VertexFinder/PrimaryVertexFinder_module.cc: IndexInVertexCollection"]}
{"id": "C395", "title": "One vertex per track", "statement": "No track is in more than one vertex", "quantifier": "all sets of tracks and all windows", "why_tests_cant": "must hold for every input, not a sample", "anchors": ["larreco/VertexFinder/PrimaryVertexFinder_module.cc: produce", "larreco/VertexFinder/PrimaryVertexFinder_module.cc: IndexInVertexCollection"]}
{"id": "C396", "title": "Position of a vertex", "statement": "Vertices are numbered in order; the position is the mean of one point per track: the start for a track alone, otherwise a point of closest approach to another track of the vertex", "quantifier": "all sets of tracks and all windows", "why_tests_cant": "must hold for every input, not a sample", "anchors": ["larreco/VertexFinder/PrimaryVertexFinder_module.cc: produce"]}
{"id": "C397", "title": "Axes of a fitter plane", "statement": "A plane made from two vectors has axes of length 1, orthogonal, counterclockwise about the normal, in the plane of the vectors; vectors that do not span a plane are refused with an exception", "quantifier": "all origins and pairs of vectors", "why_tests_cant": "must hold for every input, not a sample", "anchors": ["larreco/Genfit/GFDetPlane.cxx: GFDetPlane", "larreco/Genfit/GFDetPlane.cxx: set", "larreco/Genfit/GFDetPlane.cxx: sane", "larreco/Genfit/GFDetPlane.cxx: getNormal"]}
{"id": "C398", "title": "Fitter plane from a normal", "statement": "A plane made from a normal of any length has orthogonal axes of length 1 and a normal along the given one", "quantifier": "all normals other than zero", "why_tests_cant": "must hold for every input, not a sample", "anchors": ["larreco/Genfit/GFDetPlane.cxx: setNormal", "larreco/Genfit/GFDetPlane.cxx: setON"]}
{"id": "C399", "title": "Plane and lab coordinates", "statement": "The conversions between plane and lab coordinates are inverse to each other for points of the plane", "quantifier": "all planes with orthogonal axes of length 1 and all points", "why_tests_cant": "must hold for every input, not a sample", "anchors": ["larreco/Genfit/GFDetPlane.cxx: LabToPlane", "larreco/Genfit/GFDetPlane.cxx: toLab", "larreco/Genfit/GFDetPlane.cxx: project"]}
{"id": "C400", "title": "Line through a fitter plane", "statement": "The plane coordinates for a line are those of the one point where it crosses the plane", "quantifier": "all planes and lines", "why_tests_cant": "must hold for every input, not a sample", "anchors": ["larreco/Genfit/GFDetPlane.cxx: straightLineToPlane"]}
{"id": "C401", "title": "Equality of fitter planes", "statement": "Equality of planes is an equivalence: planes are equal if they are the same within 0.00001", "quantifier": "all pairs and triples of planes", "why_tests_cant": "must hold for every input, not a sample", "anchors": ["larreco/Genfit/GFDetPlane.cxx: operator=="]}
{"id": "C402", "title": "Histories of a fitter plane", "statement": "After any sequence of calls of the setters that do not throw the axes are orthogonal and of length 1; setting the origin leaves the axes", "quantifier": "all sequences of calls", "why_tests_cant": "must hold for every input, not a sample", "anchors": ["larreco/Genfit/GFDetPlane.cxx: setO", "larreco/Genfit/GFDetPlane.cxx: setU", "larreco/Genfit/GFDetPlane.cxx: setV", "larreco/Genfit/GFDetPlane.cxx: setUV", "larreco/Genfit/GFDetPlane.cxx: setON", "larreco/Genfit/GFDetPlane.cxx: setNormal"]}
{"id": "C403", "title": "Distance to a fitter plane", "statement": "The vector to the plane is along the normal and leads to the plane; the distance is its length, the smallest to any point of the plane, and zero exactly for points of the plane", "quantifier": "all planes with orthogonal axes of length 1 and all points", "why_tests_cant": "must hold for every input, not a sample", "anchors": ["larreco/Genfit/GFDetPlane.cxx: dist", "larreco/Genfit/GFDetPlane.cxx: distance"]}
{"id": "C404", "title": "Segmentation keeps the hits", "statement": "Splitting a cluster into straight parts neither loses nor doubles a hit", "quantifier": "all clusters and settings", "why_tests_cant": "must hold for every input, not a sample", "anchors": ["larreco/ClusterFinder/TrackShowerSplitter/Segmentation2D/Segmentation2D.cxx: run", "larreco/ClusterFinder/TrackShowerSplitter/Segmentation2D/Segmentation2D.cxx: buildSegment"]}
{"id": "C405", "title": "Segmentation ends", "statement": "Splitting a cluster into straight parts ends", "quantifier": "all clusters and settings", "why_tests_cant": "must hold for every input, not a sample", "anchors": ["larreco/ClusterFinder/TrackShowerSplitter/Segmentation2D/Segmentation2D.cxx: run", "larreco/ClusterFinder/TrackShowerSplitter/Segmentation2D/Segmentation2D.cxx: buildSegment", "larreco/ClusterFinder/TrackShowerSplitter/Segmentation2D/Segmentation2D.cxx: selectRing"]}
{"id": "C406", "title": "Marks of dense ends", "statement": "The start (end) of a part is marked exactly if another part starts or ends within the vertex radius", "quantifier": "all groups of parts without marks", "why_tests_cant": "must hold for every input, not a sample", "anchors": ["larreco/ClusterFinder/TrackShowerSplitter/Segmentation2D/Segmentation2D.cxx: tagDenseEnds"]}
{"id": "C407", "title": "Merging keeps the hits", "statement": "Merging dense parts keeps all hits; a part that is not a shower afterwards was a part before", "quantifier": "all groups of parts", "why_tests_cant": "must hold for every input, not a sample", "anchors": ["larreco/ClusterFinder/TrackShowerSplitter/Segmentation2D/Segmentation2D.cxx: mergeDenseParts", "larreco/ClusterFinder/TrackShowerSplitter/Segmentation2D/Segmentation2D.cxx: mergeClusters"]}
{"id": "C408", "title": "Merging ends", "statement": "Merging dense parts ends", "quantifier": "all groups of parts and settings", "why_tests_cant": "must hold for every input, not a sample", "anchors": ["larreco/ClusterFinder/TrackShowerSplitter/Segmentation2D/Segmentation2D.cxx: mergeDenseParts", "larreco/ClusterFinder/TrackShowerSplitter/Segmentation2D/Segmentation2D.cxx: mergeClusters"]}
{"id": "C409", "title": "What is merged", "statement": "The part with most neighbours and these neighbours become one shower, and no other part is touched; of a start and an end the denser is taken", "quantifier": "all groups of parts", "why_tests_cant": "must hold for every input, not a sample", "anchors": ["larreco/ClusterFinder/TrackShowerSplitter/Segmentation2D/Segmentation2D.cxx: mergeDenseParts", "larreco/ClusterFinder/TrackShowerSplitter/Segmentation2D/Segmentation2D.cxx: mergeClusters"]}
{"id": "C410", "title": "Hits of tracks and showers", "statement": "The split into hits of tracks and of showers gives each hit of the parts exactly once, by the mark of its part", "quantifier": "all groups of parts", "why_tests_cant": "must hold for every input, not a sample", "anchors": ["larreco/ClusterFinder/TrackShowerSplitter/Segmentation2D/Segmentation2D.cxx: splitHits"]}
{"id": "C411", "title": "Dense hits", "statement": "A hit is a hit of a shower exactly if more than the given number of other hits are within the radius", "quantifier": "all clusters", "why_tests_cant": "must hold for every input, not a sample", "anchors": ["larreco/ClusterFinder/TrackShowerSplitter/Segmentation2D/Segmentation2D.cxx: splitHitsNaive"]}
{"id": "C412", "title": "What a segment is", "statement": "A segment is not empty, each hit but the first touches an earlier one, the distance from the first does not decrease, the hits are within the given distance of a line, and the first is the nearest to the point from which the segment is sought", "quantifier": "all clusters and settings", "why_tests_cant": "must hold for every input, not a sample", "anchors": ["larreco/ClusterFinder/TrackShowerSplitter/Segmentation2D/Segmentation2D.cxx: buildSegment", "larreco/ClusterFinder/TrackShowerSplitter/Segmentation2D/Segmentation2D.cxx: run"]}
{"id": "C413", "title": "Clusters of shower hits", "statement": "The clusters in the output are not empty, have each hit of the event at most once and consecutive numbers over all planes; the search for dense hits visits each cluster once", "quantifier": "all events", "why_tests_cant": "must hold for every input, not a sample", "anchors": ["larreco/ClusterFinder/TrackShowerSplitter/TrackShowerHits_module.cc: produce"]}
{"id": "C414", "title": "Each track is a track or a shower", "statement": "After the separation of tracks and showers each track is either a track or a shower of one of two kinds", "quantifier": "all tracks, space points and settings", "why_tests_cant": "must hold for every input, not a sample", "anchors": ["larreco/RecoAlg/TrackShowerSeparationAlg.cxx: SelectShowerHits", "larreco/RecoAlg/TrackShowerSeparationAlg.h: ReconTrack"]}
{"id": "C415", "title": "Tracks by the points around them", "statement": "A track is marked as track in the first pass exactly if the ratio of space points around it to its own is below the cut times the mean ratio", "quantifier": "all tracks, space points and settings", "why_tests_cant": "must hold for every input, not a sample", "anchors": ["larreco/RecoAlg/TrackShowerSeparationAlg.cxx: SelectShowerHits", "larreco/RecoAlg/TrackShowerSeparationAlg.cxx: ProjPoint"]}
{"id": "C416", "title": "Tracks near tracks", "statement": "After the second pass a track that starts or ends near the start or end of a track marked as track is marked too, and each marked one is connected with one of the first pass", "quantifier": "all tracks", "why_tests_cant": "must hold for every input, not a sample", "anchors": ["larreco/RecoAlg/TrackShowerSeparationAlg.cxx: SelectShowerHits"]}
{"id": "C417", "title": "Shower cones", "statement": "A track becomes a shower exactly if its cones differ by more than 30 space points and 3 tracks; it is then turned to the larger cone", "quantifier": "all tracks, space points and settings", "why_tests_cant": "must hold for every input, not a sample", "anchors": ["larreco/RecoAlg/TrackShowerSeparationAlg.cxx: SelectShowerHits", "larreco/RecoAlg/TrackShowerSeparationAlg.h: ReconTrack"]}
{"id": "C418", "title": "Tracks in cones of showers", "statement": "Tracks that are not determined become showers whether or not they are in the cone of a shower", "quantifier": "all tracks", "why_tests_cant": "must hold for every input, not a sample", "anchors": ["larreco/RecoAlg/TrackShowerSeparationAlg.cxx: SelectShowerHits"]}
{"id": "C419", "title": "Hits of showers", "statement": "The hits selected are exactly those that are not of a track marked as track, in order", "quantifier": "all tracks, space points and hits", "why_tests_cant": "must hold for every input, not a sample", "anchors": ["larreco/RecoAlg/TrackShowerSeparationAlg.cxx: SelectShowerHits"]}
{"id": "C420", "title": "The separation does not fail", "statement": "The separation gives a result for all tracks, space points and hits", "quantifier": "all tracks, space points and hits", "why_tests_cant": "must hold for every input, not a sample", "anchors": ["larreco/RecoAlg/TrackShowerSeparationAlg.cxx: SelectShowerHits"]}
{"id": "C421", "title": "Direction of a track", "statement": "The direction of a track is that of the least squares lines over x, along the line for points on a line, and within a right angle of the given direction; it is not a number exactly if all points have the same x", "quantifier": "all lists of points", "why_tests_cant": "must hold for every input, not a sample", "anchors": ["larreco/RecoAlg/TrackShowerSeparationAlg.cxx: Gradient"]}
{"id": "C422", "title": "Monte Carlo hits: one hit for each deposit", "statement": "A channel gets exactly one wire and one hit for each different energy deposit (place, energy, track) stored for it, in the order of the deposits.", "quantifier": "every content of a channel", "why_tests_cant": "must hold for every input, not a sample", "anchors": ["larreco/HitFinder/MCHitFinder_module.cc:MCHitFinder::produce"]}
{"id": "C423", "title": "Monte Carlo wires: the first run of consecutive counts", "statement": "When the counts stored for a deposit ascend, its wire starts at the first of them and holds the charges of the longest run of consecutive counts from there; later counts are dropped.", "quantifier": "every content of a channel and every deposit whose counts ascend", "why_tests_cant": "must hold for every input, not a sample", "anchors": ["larreco/HitFinder/MCHitFinder_module.cc:MCHitFinder::produce"]}
{"id": "C424", "title": "Monte Carlo hits: charge, amplitude and time", "statement": "The charge of a hit is the sum of its wire; if a charge is positive the amplitude is the largest charge and the time the first count that has it; otherwise both are 0, whatever the start of the wire.", "quantifier": "every wire", "why_tests_cant": "must hold for every input, not a sample", "anchors": ["larreco/HitFinder/MCHitFinder_module.cc:MCHitFinder::produce"]}
{"id": "C425", "title": "Monte Carlo hits: charge is conserved", "statement": "The hits of a channel have the charge that was stored for the channel.", "quantifier": "every content of a channel; exact when the counts of each deposit are consecutive, an upper bound always, and counterexamples for a gap and for a repeated deposit in one count", "why_tests_cant": "must hold for every input, not a sample", "anchors": ["larreco/HitFinder/MCHitFinder_module.cc:MCHitFinder::produce"]}
{"id": "C426", "title": "Monte Carlo hits: one collection for each channel", "statement": "The module makes one collection for each channel of the detector, with the hits of the input channels of this number in their order, and fails exactly when the input is missing or names a channel the detector does not have.", "quantifier": "every number of channels and every input", "why_tests_cant": "must hold for every input, not a sample", "anchors": ["larreco/HitFinder/MCHitFinder_module.cc:MCHitFinder::produce"]}
{"id": "C427", "title": "Space charge correction: the time of a slice", "statement": "The time found for a particle is that of the first label with exactly one, of the particle or else of its only track, with the setting of this label; the time of a slice is the smallest in absolute value of those found for its particles, and there is none exactly if none was found.", "quantifier": "every event and every list of labels", "why_tests_cant": "must hold for every input, not a sample", "anchors": ["larreco/SCECorrections/SCECorrection_module.cc:getSliceT0s", "larreco/SCECorrections/SCECorrection_module.cc:getSliceBestT0"]}
{"id": "C428", "title": "Space charge correction: positions", "statement": "A position is moved along the drift axis of its TPC by velocity times time if the slice has a time and its label asks for it, then by the calibration offset at the moved place, with the x component reversed if so set; without the calibration, distances in a TPC do not change.", "quantifier": "every position, TPC, time and setting", "why_tests_cant": "must hold for every input, not a sample", "anchors": ["larreco/SCECorrections/SCECorrection_module.cc:applyT0Shift", "larreco/SCECorrections/SCECorrection_module.cc:SCECorrection::produce"]}
{"id": "C429", "title": "Space charge correction: vertices", "statement": "A vertex is corrected as in the TPC of the first hit of the space point closest to it, of its particle or, if it has none, of the event; it is dropped exactly if the event has no space point.", "quantifier": "every vertex, particle and event", "why_tests_cant": "must hold for every input, not a sample", "anchors": ["larreco/SCECorrections/SCECorrection_module.cc:SCECorrection::produce"]}
{"id": "C430", "title": "Space charge correction: slices and particles", "statement": "Every slice is copied; the copied particles are those of the slices that have a time (all, if so set), in order, each associated with the copy of its slice and with exactly one copy of its time if there is one.", "quantifier": "every event and setting", "why_tests_cant": "must hold for every input, not a sample", "anchors": ["larreco/SCECorrections/SCECorrection_module.cc:SCECorrection::produce"]}
{"id": "C431", "title": "Space charge correction: objects of a particle", "statement": "A copied particle has exactly the corrected space points and vertices and the clusters and metadata of the original, in order, and each new object belongs to exactly one copied particle.", "quantifier": "every event and setting", "why_tests_cant": "must hold for every input, not a sample", "anchors": ["larreco/SCECorrections/SCECorrection_module.cc:SCECorrection::produce"]}
{"id": "C432", "title": "Space charge correction: hits are kept", "statement": "Copied slices, space points and clusters have the hits of the originals.", "quantifier": "every event and setting", "why_tests_cant": "must hold for every input, not a sample", "anchors": ["larreco/SCECorrections/SCECorrection_module.cc:SCECorrection::produce"]}
{"id": "C433", "title": "Line clusters: end points and vertices written", "statement": "The end points written are exactly the 2D vertices that have clusters, and the vertices exactly those with a 2D vertex in each plane, in order and numbered from 1.", "quantifier": "every result of the cluster crawler", "why_tests_cant": "must hold for every input, not a sample", "anchors": ["larreco/ClusterFinder/LineCluster_module.cc:LineCluster::produce", "larreco/ClusterFinder/ClusterCrawler_module.cc:ClusterCrawler::produce"]}
{"id": "C434", "title": "Line clusters: clusters written", "statement": "The module succeeds exactly if each live cluster has hits, all existing, and 2D vertices that exist; it then writes the live clusters in order, numbered from 1, with the charge of their hits and associated with exactly their hits.", "quantifier": "every result of the cluster crawler", "why_tests_cant": "must hold for every input, not a sample", "anchors": ["larreco/ClusterFinder/LineCluster_module.cc:LineCluster::produce", "larreco/ClusterFinder/ClusterCrawler_module.cc:ClusterCrawler::produce"]}
{"id": "C435", "title": "Line clusters: end points of clusters", "statement": "Each end of a cluster with a 2D vertex is associated with exactly the end point of this vertex, marked with the end.", "quantifier": "every result of the cluster crawler", "why_tests_cant": "must hold for every input, not a sample", "anchors": ["larreco/ClusterFinder/LineCluster_module.cc:LineCluster::produce"]}
{"id": "C436", "title": "Line clusters: vertices of clusters", "statement": "Each end of a cluster with a 2D vertex is associated with exactly the first written vertex that has this 2D vertex in the plane of the cluster, if there is one, marked with the end.", "quantifier": "every result of the cluster crawler", "why_tests_cant": "must hold for every input, not a sample", "anchors": ["larreco/ClusterFinder/LineCluster_module.cc:LineCluster::produce", "larreco/ClusterFinder/ClusterCrawler_module.cc:ClusterCrawler::produce"]}
{"id": "C437", "title": "Cluster crawler: check before writing", "statement": "The crawler module writes its products only if each hit of a live cluster is in the plane of the cluster and marked with its number; so no hit is in two written clusters of different number.", "quantifier": "every result of the cluster crawler", "why_tests_cant": "must hold for every input, not a sample", "anchors": ["larreco/ClusterFinder/ClusterCrawler_module.cc:ClusterCrawler::produce"]}
{"id": "C438", "title": "Track nodes: limits", "statement": "Setting a node to a place is accepted exactly if the place is inside the limits of its TPC with the margin; otherwise the node is set to the closest place inside in each coordinate. The distance to the wall is the smallest of the six distances to the limits.", "quantifier": "every node and place", "why_tests_cant": "must hold for every input, not a sample", "anchors": ["larreco/RecoAlg/PMAlg/PmaNode3D.cxx:Node3D::SetPoint3D", "larreco/RecoAlg/PMAlg/PmaNode3D.cxx:Node3D::LimitPoint3D", "larreco/RecoAlg/PMAlg/PmaNode3D.cxx:Node3D::GetDistToWall", "larreco/RecoAlg/PMAlg/PmaNode3D.cxx:Node3D::SameTPC"]}
{"id": "C439", "title": "Track nodes: gradient", "statement": "Making the gradient leaves the node at its place; a component is minus the central difference of the objective, a fixed component is kept.", "quantifier": "every node, objective and place inside the limits", "why_tests_cant": "must hold for every input, not a sample", "anchors": ["larreco/RecoAlg/PMAlg/PmaNode3D.cxx:Node3D::MakeGradient"]}
{"id": "C440", "title": "Track nodes: the step ends", "statement": "A step along the gradient ends.", "quantifier": "every objective, place inside the limits, positive first step and tolerance", "why_tests_cant": "must hold for every input, not a sample", "anchors": ["larreco/RecoAlg/PMAlg/PmaNode3D.cxx:Node3D::StepWithGradient"]}
{"id": "C441", "title": "Track nodes: result of the step", "statement": "After a step the node is inside the limits, a value returned other than 0 is the part by which the objective fell, and after a positive value the objective is smaller.", "quantifier": "every objective, place inside the limits, positive first step and tolerance", "why_tests_cant": "must hold for every input, not a sample", "anchors": ["larreco/RecoAlg/PMAlg/PmaNode3D.cxx:Node3D::StepWithGradient"]}
{"id": "C442", "title": "Track nodes: never worse", "statement": "A step never leaves the node at a place with a larger objective than at the start.", "quantifier": "every objective and place inside the limits", "why_tests_cant": "must hold for every input, not a sample", "anchors": ["larreco/RecoAlg/PMAlg/PmaNode3D.cxx:Node3D::StepWithGradient"]}
{"id": "C443", "title": "Track nodes: optimisation", "statement": "The optimisation does not change a frozen node; otherwise it ends with the node inside the limits.", "quantifier": "every objective and place inside the limits", "why_tests_cant": "must hold for every input, not a sample", "anchors": ["larreco/RecoAlg/PMAlg/PmaNode3D.cxx:Node3D::Optimize"]}
{"id": "C444", "title": "3D slices: hits of a slice", "statement": "The hits of a slice are exactly those whose first space point is in its cluster, in order, followed by those whose first space point is in no cluster and whose closest hit in the same plane of the first kind, closer than the limit, is in the slice.", "quantifier": "every collection of hits and space points and every result of the clustering", "why_tests_cant": "must hold for every input, not a sample", "anchors": ["larreco/ClusterFinder/DBCluster3D_module.cc:DBCluster3D::produce"]}
{"id": "C445", "title": "3D slices: no hit twice", "statement": "No hit is in two slices or twice in one, and each hit whose first space point is in a cluster is in its slice.", "quantifier": "every collection of hits and space points and every result of the clustering", "why_tests_cant": "must hold for every input, not a sample", "anchors": ["larreco/ClusterFinder/DBCluster3D_module.cc:DBCluster3D::produce"]}
{"id": "C446", "title": "3D slices: space points of a slice", "statement": "The space points of a slice are exactly those of its cluster, in order, and each cluster has a slice.", "quantifier": "every collection of space points and every result of the clustering", "why_tests_cant": "must hold for every input, not a sample", "anchors": ["larreco/ClusterFinder/DBCluster3D_module.cc:DBCluster3D::produce"]}
{"id": "C447", "title": "3D slices: slices written", "statement": "Each cluster of space points is written as a slice, numbered by the cluster, in ascending order.", "quantifier": "every collection of hits and space points and every result of the clustering", "why_tests_cant": "must hold for every input, not a sample", "anchors": ["larreco/ClusterFinder/DBCluster3D_module.cc:DBCluster3D::produce"]}
{"id": "C448", "title": "3D slices: content", "statement": "A slice that is written has the hits and the space points of its cluster, the number of hits as its charge and the mean of the space points as its centre.", "quantifier": "every collection of hits and space points and every result of the clustering", "why_tests_cant": "must hold for every input, not a sample", "anchors": ["larreco/ClusterFinder/DBCluster3D_module.cc:DBCluster3D::produce"]}
{"id": "C449", "title": "3D slices: axis and ends", "statement": "The axis of a slice that is written is that of the least squares fits of y and z against x, and its ends are space points of the slice with none further out along the axis.", "quantifier": "every collection of hits and space points and every result of the clustering", "why_tests_cant": "must hold for every input, not a sample", "anchors": ["larreco/ClusterFinder/DBCluster3D_module.cc:DBCluster3D::produce"]}
{"id": "C450", "title": "Cone showers: clusters of a scan", "statement": "The clusters found in a scan of a vertex are exactly those with at least half of their hits in the cone, in order.", "quantifier": "every vertex, scan and collection of clusters", "why_tests_cant": "must hold for every input, not a sample", "anchors": ["larreco/ShowerFinder/ShowerFinder_module.cc:ShowerFinder::produce"]}
{"id": "C451", "title": "Cone showers: showers written", "statement": "There is one shower for each vertex that is strongest or strong and each scan in which a cluster is found, in order, associated with exactly these clusters and their hits.", "quantifier": "every collection of vertices and clusters and every list of scans", "why_tests_cant": "must hold for every input, not a sample", "anchors": ["larreco/ShowerFinder/ShowerFinder_module.cc:ShowerFinder::produce"]}
{"id": "C452", "title": "Cone showers: test of a hit", "statement": "A hit is counted exactly if it is between the two sides of the cone at the vertex.", "quantifier": "every vertex, cone and hit", "why_tests_cant": "must hold for every input, not a sample", "anchors": ["larreco/ShowerFinder/ShowerFinder_module.cc:ShowerFinder::produce"]}
{"id": "C453", "title": "Cone showers: no cluster twice", "statement": "No cluster is in two showers.", "quantifier": "every collection of vertices and clusters", "why_tests_cant": "must hold for every input, not a sample", "anchors": ["larreco/ShowerFinder/ShowerFinder_module.cc:ShowerFinder::produce"]}
{"id": "C454", "title": "True events", "statement": "If every vertex has a particle, there is one event for each generated interaction with vertices, in the order of the interactions, associated with exactly the vertices whose (last) particle comes from it, in order; otherwise the look-up fails.", "quantifier": "every collection of particles and vertices", "why_tests_cant": "must hold for every input, not a sample", "anchors": ["larreco/EventFinder/EventCheater_module.cc:EventCheater::produce"]}
{"id": "C455", "title": "True events: hits and numbers", "statement": "Each event is associated with the hits of its vertices, and has its index as number.", "quantifier": "every collection of particles, vertices and hits", "why_tests_cant": "must hold for every input, not a sample", "anchors": ["larreco/EventFinder/EventCheater_module.cc:EventCheater::produce"]}
{"id": "C456", "title": "True wires: order and Z", "statement": "The hits written are in the order of the input, have a valid wire, and a hit in Z is written exactly if its wire is valid, with this wire.", "quantifier": "every collection of hits", "why_tests_cant": "must hold for every input, not a sample", "anchors": ["larreco/HitFinder/DisambigCheater_module.cc:DisambigCheater::produce"]}
{"id": "C457", "title": "True wires: induction planes", "statement": "A hit not in Z is written exactly if the last such hit of its channel and time has deposits and the wire of the first of them is valid, with this wire; the hits counted as failed are those without deposits.", "quantifier": "every collection of hits, deposits and wires of channels", "why_tests_cant": "must hold for every input, not a sample", "anchors": ["larreco/HitFinder/DisambigCheater_module.cc:DisambigCheater::produce"]}
{"id": "C458", "title": "True wires: own channel and deposits", "statement": "The wire given to a hit is one of its channel, and depends on the deposits of this hit only.", "quantifier": "every collection of hits, deposits and wires", "why_tests_cant": "must hold for every input, not a sample", "anchors": ["larreco/HitFinder/DisambigCheater_module.cc:DisambigCheater::produce"]}
{"id": "C459", "title": "Density clusters written", "statement": "For each plane with hits and each cluster number of its scan that has hits there is one cluster with exactly these hits in order, numbered by its position.", "quantifier": "every collection of hits and every scan", "why_tests_cant": "must hold for every input, not a sample", "anchors": ["larreco/ClusterFinder/DBcluster_module.cc:DBcluster::produce"]}
{"id": "C460", "title": "Fitted vertices written", "statement": "There is one vertex for each primary particle with at least two daughters, whose daughters have at least two tracks and a valid fit, in order, numbered by its index and associated with the particle and with the tracks of the daughters, in order, each with its own data.", "quantifier": "every collection of particles and tracks and every fit", "why_tests_cant": "must hold for every input, not a sample", "anchors": ["larreco/VertexFinder/VertexFitter_module.cc:VertexFitter::produce"]}
{"id": "C461", "title": "Fitted vertices: tracks once", "statement": "A track is associated at most once with a vertex.", "quantifier": "every collection of particles and tracks", "why_tests_cant": "must hold for every input, not a sample", "anchors": ["larreco/VertexFinder/VertexFitter_module.cc:VertexFitter::produce"]}
{"id": "C462", "title": "True vertices written", "statement": "There is one vertex for each mother of a shower or track (or shower or track without mother), in order of first appearance, at the start of this particle, associated with exactly its showers and tracks and their hits; it fails only if a particle is not known.", "quantifier": "every collection of showers, tracks and particles", "why_tests_cant": "must hold for every input, not a sample", "anchors": ["larreco/VertexFinder/VertexCheater_module.cc:VertexCheater::produce"]}
{"id": "C463", "title": "True vertices: place", "statement": "A vertex is where its tracks start.", "quantifier": "every collection of showers, tracks and particles", "why_tests_cant": "must hold for every input, not a sample", "anchors": ["larreco/VertexFinder/VertexCheater_module.cc:VertexCheater::produce"]}
{"id": "C464", "title": "Space points of a particle: hits used", "statement": "The hits used for the space points of a particle are those of its clusters.", "quantifier": "every collection of particles and clusters", "why_tests_cant": "must hold for every input, not a sample", "anchors": ["larreco/TrackFinder/TCTrack_module.cc:TCTrack::produce"]}
{"id": "C465", "title": "Space points of particles written", "statement": "The space points are those made for the particles, in order, each associated with exactly its hits; it fails only if the hits of a particle are not found.", "quantifier": "every collection of particles and every way to make space points", "why_tests_cant": "must hold for every input, not a sample", "anchors": ["larreco/TrackFinder/TCTrack_module.cc:TCTrack::produce"]}
{"id": "C466", "title": "Tracks made again: hits used", "statement": "Each track is fitted with its own hits.", "quantifier": "every collection of tracks and hits", "why_tests_cant": "must hold for every input, not a sample", "anchors": ["larreco/TrackFinder/TrackProducerFromTrack_module.cc:TrackProducerFromTrack::produce"]}
{"id": "C467", "title": "Tracks made again: failure", "statement": "It fails exactly if a fit gives a track with a number of points that is not the number of hits.", "quantifier": "every collection of tracks and every fit", "why_tests_cant": "must hold for every input, not a sample", "anchors": ["larreco/TrackFinder/TrackProducerFromTrack_module.cc:TrackProducerFromTrack::produce"]}
{"id": "C468", "title": "Tracks made again: what is written", "statement": "There is one track for each valid fit, in order, with the hits of the fit in order; there is one space point for each valid point (or each of the tool), in order, associated with its hit.", "quantifier": "every collection of tracks and every fit", "why_tests_cant": "must hold for every input, not a sample", "anchors": ["larreco/TrackFinder/TrackProducerFromTrack_module.cc:TrackProducerFromTrack::produce"]}
{"id": "C469", "title": "Track vertices: merging of two candidates", "statement": "Two candidates are merged exactly if their centres are not far apart, the second has tracks, none of its tracks is attached to one of the first (or to an earlier one of its own), and the fit of all is good; the result has the tracks of both.", "quantifier": "every two candidates, every relation of tracks and every fit", "why_tests_cant": "must hold for every input, not a sample", "anchors": ["larreco/RecoAlg/PMAlg/PmaVtxCandidate.cxx:VtxCandidate::MergeWith"]}
{"id": "C470", "title": "Track vertices: refused merging", "statement": "A candidate with which another is not merged is unchanged.", "quantifier": "every two candidates", "why_tests_cant": "must hold for every input, not a sample", "anchors": ["larreco/RecoAlg/PMAlg/PmaVtxCandidate.cxx:VtxCandidate::MergeWith"]}
{"id": "C471", "title": "Track vertices: contained candidates", "statement": "No candidate whose tracks are all in another is kept, and each candidate is contained in one that is kept.", "quantifier": "every list of candidates", "why_tests_cant": "must hold for every input, not a sample", "anchors": ["larreco/RecoAlg/PMAlgVertexing.cxx:PMAlgVertexing::makeVertices"]}
{"id": "C472", "title": "Track vertices: merging of candidates", "statement": "The merging ends, after at most as many steps as there are candidates, and each candidate is contained in one that is left; the pair tried is always a closest one, if it is near enough.", "quantifier": "every list of candidates and every fit", "why_tests_cant": "must hold for every input, not a sample", "anchors": ["larreco/RecoAlg/PMAlgVertexing.cxx:PMAlgVertexing::makeVertices"]}
{"id": "C473", "title": "Track vertices: selection", "statement": "The selected vertices and those left are the candidates; a selected vertex has no loop, and two of them are neither attached nor close.", "quantifier": "every list of candidates", "why_tests_cant": "must hold for every input, not a sample", "anchors": ["larreco/RecoAlg/PMAlgVertexing.cxx:PMAlgVertexing::makeVertices"]}
{"id": "C474", "title": "Track vertices: best first", "statement": "Each selected vertex has at least as many long tracks as (and then at least the angle of) every candidate that could be selected in its place; at the end none with a long track could be.", "quantifier": "every list of candidates", "why_tests_cant": "must hold for every input, not a sample", "anchors": ["larreco/RecoAlg/PMAlgVertexing.cxx:PMAlgVertexing::makeVertices"]}
{"id": "C475", "title": "Track vertices: sorting of tracks", "statement": "Without vertices the tracks returned are those given: the long ones, the others, and those with a time or a cosmic flag, each in order.", "quantifier": "every list of tracks and every limit", "why_tests_cant": "must hold for every input, not a sample", "anchors": ["larreco/RecoAlg/PMAlgVertexing.cxx:PMAlgVertexing::sortTracks"]}
{"id": "C476", "title": "Vertex candidate: first track", "statement": "A first track is accepted exactly if one of its segments has at least the minimal length; then it is the only track of the candidate, otherwise the candidate stays empty.", "quantifier": "every track", "why_tests_cant": "must hold for every input, not a sample", "anchors": ["larreco/RecoAlg/PMAlg/PmaVtxCandidate.cxx:VtxCandidate::Add"]}
{"id": "C477", "title": "Vertex candidate: third track", "statement": "A third or later track is accepted exactly if it is attached to none of the candidate and has a segment of at least the minimal length for which the error of the fit and the distance to the centre are below their limits; the segment taken is such a one, and no other is better in both; if the track is refused, tracks and segments are unchanged.", "quantifier": "every candidate with two tracks or more, every track and every fit", "why_tests_cant": "must hold for every input, not a sample", "anchors": ["larreco/RecoAlg/PMAlg/PmaVtxCandidate.cxx:VtxCandidate::Add"]}
{"id": "C478", "title": "Vertex candidate: second track", "statement": "With a minimal length above 0, a second track is accepted exactly if it is not attached to the first and there are two segments of at least that length for which the distance of the fit is below the limit; those taken are such; if it is refused, the first track stays alone.", "quantifier": "every two tracks and every fit", "why_tests_cant": "must hold for every input, not a sample", "anchors": ["larreco/RecoAlg/PMAlg/PmaVtxCandidate.cxx:VtxCandidate::Add"]}
{"id": "C479", "title": "Vertex candidate: closest segments", "statement": "Of the pairs of segments of two tracks the one taken is a closest one, unless a closer one is shorter.", "quantifier": "every two tracks and every fit", "why_tests_cant": "must hold for every input, not a sample", "anchors": ["larreco/RecoAlg/PMAlg/PmaVtxCandidate.cxx:VtxCandidate::Add"]}
{"id": "C480", "title": "Vertex candidate: refused second track", "statement": "A candidate that refuses a second track is unchanged.", "quantifier": "every two tracks and every fit", "why_tests_cant": "must hold for every input, not a sample", "anchors": ["larreco/RecoAlg/PMAlg/PmaVtxCandidate.cxx:VtxCandidate::Add"]}
{"id": "C481", "title": "Vertex candidates: first pass", "statement": "The candidates of the first pass are, in order, those that can be made of each track and each one after it: both accepted and the error of the fit less than 1.", "quantifier": "every list of tracks and every fit", "why_tests_cant": "must hold for every input, not a sample", "anchors": ["larreco/RecoAlg/PMAlgVertexing.cxx:PMAlgVertexing::firstPassCandidates"]}
{"id": "C482", "title": "Vertex candidates: second pass", "statement": "The candidates of the second pass are, in order, those that can be made of each track longer than the limit and each shower-like track that is another one.", "quantifier": "every two lists of tracks and every fit", "why_tests_cant": "must hold for every input, not a sample", "anchors": ["larreco/RecoAlg/PMAlgVertexing.cxx:PMAlgVertexing::secondPassCandidates"]}
{"id": "C483", "title": "Vertex candidates: two tracks", "statement": "Each candidate of the passes has two tracks, not attached to each other, a segment of each with at least the minimal length, and an error of the fit less than 1.", "quantifier": "every two tracks and every fit", "why_tests_cant": "must hold for every input, not a sample", "anchors": ["larreco/RecoAlg/PMAlg/PmaVtxCandidate.cxx:VtxCandidate::Add", "larreco/RecoAlg/PMAlgVertexing.cxx:PMAlgVertexing::firstPassCandidates", "larreco/RecoAlg/PMAlgVertexing.cxx:PMAlgVertexing::secondPassCandidates"]}
{"id": "C484", "title": "True hits: ticks and charge", "statement": "The ticks of a wire are cut where two that follow each other are more than the gap apart, and only there; each group whose charge is above the limit is a hit, which starts at its first tick, has the sum of its charges, and the first of its largest charges as the peak; with a limit below 0 no charge is lost.", "quantifier": "every list of ticks with charges that are not negative, every gap and every limit", "why_tests_cant": "must hold for every input, not a sample", "anchors": ["larreco/HitFinder/HitCheater_module.cc:HitCheater::FindHitsOnChannel"]}
{"id": "C485", "title": "True hits: end", "statement": "The end of a hit is one after its last tick.", "quantifier": "every list of ticks", "why_tests_cant": "must hold for every input, not a sample", "anchors": ["larreco/HitFinder/HitCheater_module.cc:HitCheater::FindHitsOnChannel"]}
{"id": "C486", "title": "True clusters: numbers", "statement": "The number of a cluster tells its particle, plane, TPC and cryostat.", "quantifier": "every particle, plane, TPC and cryostat", "why_tests_cant": "must hold for every input, not a sample", "anchors": ["larreco/ClusterFinder/ClusterCheater_module.cc:ClusterCheater::produce", "larreco/ShowerFinder/ShowerCheater_module.cc:ShowerCheater::produce", "larreco/TrackFinder/TrackCheater_module.cc:TrackCheater::produce"]}
{"id": "C487", "title": "True showers and tracks: particles", "statement": "The particles that have clusters are treated once each, in ascending order, each with its clusters in order.", "quantifier": "every list of numbers of clusters", "why_tests_cant": "must hold for every input, not a sample", "anchors": ["larreco/ShowerFinder/ShowerCheater_module.cc:ShowerCheater::produce", "larreco/TrackFinder/TrackCheater_module.cc:TrackCheater::produce"]}
{"id": "C488", "title": "True showers: showers", "statement": "The showers are the electrons, photons and neutral pions with clusters, in ascending order; a shower is associated with exactly the clusters of its particle.", "quantifier": "every list of clusters and every particle code", "why_tests_cant": "must hold for every input, not a sample", "anchors": ["larreco/ShowerFinder/ShowerCheater_module.cc:ShowerCheater::produce"]}
{"id": "C489", "title": "True showers: hits", "statement": "A shower is associated with exactly the hits of its clusters.", "quantifier": "every list of clusters", "why_tests_cant": "must hold for every input, not a sample", "anchors": ["larreco/ShowerFinder/ShowerCheater_module.cc:ShowerCheater::produce"]}
{"id": "C490", "title": "True showers: space points", "statement": "Each hit of each cluster gives a space point, associated with this hit; its number is that of the cluster, times 10000, and the index of the hit.", "quantifier": "every list of clusters", "why_tests_cant": "must hold for every input, not a sample", "anchors": ["larreco/ShowerFinder/ShowerCheater_module.cc:ShowerCheater::produce"]}
{"id": "C491", "title": "True tracks: tracks", "statement": "The tracks are the other particles with two hits or more on the collection plane, in ascending order; the number of a track is its particle, and it is associated with exactly the clusters of the particle and their hits.", "quantifier": "every list of clusters and every particle code", "why_tests_cant": "must hold for every input, not a sample", "anchors": ["larreco/TrackFinder/TrackCheater_module.cc:TrackCheater::produce"]}
{"id": "C492", "title": "True tracks: space points", "statement": "Each hit of a track on the collection plane gives a space point associated with the track; its number is the particle, times 10000, and the index of the hit.", "quantifier": "every list of clusters and every particle code", "why_tests_cant": "must hold for every input, not a sample", "anchors": ["larreco/TrackFinder/TrackCheater_module.cc:TrackCheater::produce"]}
{"id": "C493", "title": "Space points: reading of hits", "statement": "Good hits of a collection plane are read as X hits in views Z and V and as U hits in views U and Y; the others as U and V hits in views U and V; each list is in order, and there are two views exactly if a good hit of a collection plane is in view U, V or Y.", "quantifier": "every list of hits", "why_tests_cant": "must hold for every input, not a sample", "anchors": ["larreco/SpacePointSolver/HitReaders/HitsStandard_tool.cc:HitsStandard::readHits"]}
{"id": "C494", "title": "Space points: reading of hits by plane", "statement": "The good hits are read by plane: 0 as the first induction, 1 as the second, the others as the collection, each list in order.", "quantifier": "every list of hits", "why_tests_cant": "must hold for every input, not a sample", "anchors": ["larreco/SpacePointSolver/HitReaders/HitsICARUS_tool.cc:HitsICARUS::readHits"]}
{"id": "C495", "title": "APA hits", "statement": "The hits are copies of those in view Z, in order, and then of those that were disambiguated, each with its new wire; each is associated with the wire and digits of the hit it is a copy of.", "quantifier": "every list of hits and every result of the disambiguation", "why_tests_cant": "must hold for every input, not a sample", "anchors": ["larreco/HitFinder/APAHitFinder_module.cc:APAHitFinder::produce"]}
{"id": "C496", "title": "Cluster tree: entries", "statement": "There is an entry for each cluster in the views U, V and Z, with its view, and no other.", "quantifier": "every list of clusters and every event before", "why_tests_cant": "must hold for every input, not a sample", "anchors": ["larreco/ClusterFinder/ClusterPCA_module.cc:ClusterPCA::analyze"]}
{"id": "C497", "title": "Particles: cosmic score", "statement": "The score of a particle is 1 exactly if an end is below -2 or above 260 in X, or the sum of the distances of the two ends to the nearest side in Y and Z is below 30; otherwise it is 0.", "quantifier": "every two ends and every detector", "why_tests_cant": "must hold for every input, not a sample", "anchors": ["larreco/RecoAlg/TCAlg/TCCR.cxx:SaveCRInfo"]}
{"id": "C498", "title": "Particles: origin", "statement": "The origin of a particle is the first of those with the most energy; without any it is 0.", "quantifier": "every map of energies that are not negative", "why_tests_cant": "must hold for every input, not a sample", "anchors": ["larreco/RecoAlg/TCAlg/TCCR.cxx:GetOrigin"]}
