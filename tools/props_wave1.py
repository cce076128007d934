import json
P=[]
def p(id,title,statement,quantifier,why,anchors):
    P.append(dict(id=id,title=title,statement=statement,quantifier=quantifier,why_tests_cant=why,anchors=anchors))
MB="larreco/RecoAlg/CMTool/CMToolBase/CMergeBookKeeper.cxx"
p("C01","Merge book keeper always reports a partition",
"After CMergeBookKeeper is Reset(n) and driven through any sequence of ProhibitMerge/Merge/Combine calls (including rejected ones), GetResult() is a partition of {0..n-1}: every input index is in exactly one group, no group is empty, each group is strictly ascending and groups are ordered by their smallest member.",
"every n, every finite sequence of calls with arbitrary arguments",
"depends on every call history; tests only sample a few short histories",
[MB+":Reset,ProhibitMerge,Merge,Combine,PassResult"])
p("C02","IsMerged is the equivalence closure of accepted merges",
"IsMerged(i,j) answers true exactly when i and j are connected by a chain of Merge requests that were accepted since the last Reset.",
"every call history and every pair of in-range indices","needs all histories and all chains",
[MB+":Merge,IsMerged"])
p("C03","Merge prohibitions are enforced exactly",
"MergeAllowed(i,j) is false (and Merge(i,j) is refused with an exception) exactly when i and j are in different groups and some accepted ProhibitMerge(a,b) relates a member of i's group to a member of j's group; hence no prohibited pair is ever merged and no unrelated pair is refused, however many merges have re-indexed the prohibition table in between.",
"every call history, every pair of distinct in-range indices","the triangular prohibition table is re-indexed in place by each merge; only induction over histories covers all shapes",
[MB+":ProhibitMerge,MergeAllowed,Merge"])
p("C04","Rejected book-keeper calls change nothing and valid calls never go out of range",
"A Merge or ProhibitMerge call that throws (identical indices, index out of range, already merged, prohibited) leaves the observable state (GetResult, IsMerged, MergeAllowed) unchanged; and for in-range arguments none of the internal bounds-checked accesses can throw.",
"every reachable state and every argument pair","needs every reachable state",
[MB+":ProhibitMerge,Merge"])
p("C05","Combine composes the two merge results",
"If this->Combine(another) succeeds, then two original inputs are merged afterwards iff another merges the (old) output groups they belonged to; the new k-th output group is the union of the old groups in another's k-th group.",
"all reachable pairs of book keepers of compatible sizes","quantifies over two histories",
[MB+":Combine"])
p("C06","Book keeper queries agree with each other",
"GetMergedSet(i) returns, in ascending order, exactly those j for which IsMerged(i,j), and is one of the groups of GetResult().",
"every reachable state and index","all histories",[MB+":GetMergedSet,IsMerged,PassResult"])
CM="larreco/RecoAlg/CMTool/CMToolBase/CMatchBookKeeper.cxx"
p("C07","Match results never share a cluster",
"CMatchBookKeeper::GetResult() returns only registered index sets and any two returned entries share no cluster index.",
"every finite sequence of Match calls","all registration histories and index values (bitmap is resized on the fly)",[CM+":Match,PassResult"])
p("C08","Match selection is greedy by score",
"The sets in GetResult() are considered from highest to lowest score (among equal scores, last registered first); a registered set is missing from the result exactly when it shares a cluster with a set already accepted before it in that order. In particular the best-scoring registration is always returned.",
"every finite sequence of Match calls","all histories, all ties",[CM+":Match,PassResult"])
MM="larreco/RecoAlg/CMTool/CMToolBase/CMatchManager.cxx"
p("C09","Cluster-combination enumeration is complete and duplicate free",
"ClusterCombinations(seed) with every seed entry positive returns each tuple (c_0..c_{k-1}) with c_i < seed_i exactly once, in lexicographic order; it terminates for every seed.",
"every seed vector","odometer loop over unbounded sizes",[MM+":ClusterCombinations"])
p("C10","Plane-combination enumeration is complete and duplicate free",
"SimpleCombination(n,r) for 1<=r<=n returns every r-element subset of {0..n-1} exactly once, each in ascending order; PlaneClusterCombinations returns every choice of at least two planes with one cluster from each, exactly once, larger plane counts first.",
"every n, r and seed","combinatorial; unbounded n",[MM+":SimpleCombination,PlaneClusterCombinations"])
p("C11","Matched sets take one cluster from each of at least two planes",
"Every set CMatchManager reports contains at least two clusters, all from pairwise different planes, each with positive priority; every such combination is offered to the matching algorithm.",
"all cluster lists, plane assignments, priorities and match algorithms","all inputs and all algorithms",[MM+":IterationProcess"])
MG="larreco/RecoAlg/CMTool/CMToolBase/CMergeManager.cxx"
p("C12","Cluster merging conserves hits and matches its book keeper",
"After CMergeManager::Process, GetClusters()[k] contains exactly the hits of the input clusters listed in GetBookKeeper().GetResult()[k], for every k; no hit is lost, duplicated or moved to another plane.",
"all cluster lists, all merge/separate/priority algorithms, any number of iterations","composes arbitrarily many merging iterations and the final Combine chain",[MG+":Process,IterationProcess,EventEnd,RunMerge"])
p("C13","Iterative merging terminates",
"CMergeManager::Process with MergeTillConverge terminates after at most (number of input clusters) iterations whatever the algorithms answer.",
"all inputs and all algorithm behaviours","termination",[MG+":IterationProcess","larreco/RecoAlg/CMTool/CMToolBase/CMManagerBase.cxx:Process"])
p("C14","Only same-plane, positive-priority, mutually allowed clusters are merged",
"In one merging pass, clusters that end up in one group are connected by pairs that are on the same plane, both have positive priority, and for which the merge algorithm answered true; a pair for which the separation algorithm answered true never ends up in one group.",
"all inputs and algorithms","all algorithm answers",[MG+":RunMerge,RunSeparate","larreco/RecoAlg/CMTool/CMToolBase/CMManagerBase.cxx:ComputePriority"])
p("C15","Priority ordering",
"ComputePriority orders clusters by decreasing priority, equal priorities by increasing cluster index, and omits exactly the clusters whose priority is not positive.",
"all cluster lists and priority functions","all inputs incl. ties",["larreco/RecoAlg/CMTool/CMToolBase/CMManagerBase.cxx:ComputePriority"])
p("C16","Composite boolean algorithm evaluates its AND/OR chain",
"CBAlgoArray::Bool returns the left-to-right value of its chain of AND/OR sub-algorithms.",
"every chain and every sub-algorithm outcome","exponentially many chains",["larreco/RecoAlg/CMTool/CMTAlgMerge/CBAlgoArray.cxx:Bool","larreco/RecoAlg/CMTool/CMTAlgMerge/CBAlgoArray.h:AddAlgo"])
SO="larreco/RecoAlg/PMAlg/SortedObjects.cxx"
p("C17","Prev/Next links of PMA track elements stay mutually consistent",
"After any sequence of constructor, AddNext, RemoveNext and Disconnect calls on any mix of plain and branching elements: y is among x's Next elements exactly when y's Prev is x; no element appears twice among another's Next elements.",
"all element populations and call sequences","heap-shaped invariant over all histories",[SO+":AddNext,RemoveNext,Disconnect"])
p("C18","Adding or removing a link has exactly the requested effect",
"AddNext(y) on x, when it returns true, makes x the Prev of y, removes y from its former predecessor, and changes no other element's Prev except (for a plain x) the successor it displaced; RemoveNext undoes it; Disconnect leaves the element without Prev and Next and touches only its neighbours.",
"all reachable structures","frame condition over unbounded heaps",[SO+":AddNext,RemoveNext,Disconnect"])
p("C19","Track book keepers keep their parallel vectors in step",
"After any sequence of addPoint calls on a TrackCreationBookKeeper, positions, momenta, flags and the output hit vector have equal length and the k-th entries come from the k-th call; the track gets number of non-negative chi2 values minus nfittedpars degrees of freedom and their sum as chi2 unless setTotChi2 overrides it.",
"all call sequences","all histories",["larreco/RecoAlg/TrackCreationBookKeeper.h","larreco/RecoAlg/TrackTrajectoryCreationBookKeeper.h"])
DB="larreco/RecoAlg/DBScan3DAlg.cxx"
p("C20","DBSCAN labels core, border and noise points correctly",
"After dbscan(), no point is left unclassified; a point is noise exactly when it is not a core point (has fewer than minpts epsilon-neighbours) and has no core point within epsilon; every non-noise point that is not core shares the label of a core point within epsilon.",
"all point sets, epsilon, minpts and bad-channel counts","all geometries; order dependent loop with in-flight list growth",[DB+":dbscan,expand,spread"])
p("C21","DBSCAN clusters are the density-connected components",
"Two core points get the same cluster id exactly when they are linked by a chain of core points each within epsilon of the next; so the grouping of core points does not depend on input order.",
"all point sets and parameters","reachability over arbitrary chains",[DB+":dbscan,expand,spread"])
p("C22","DBSCAN cluster ids are contiguous",
"The cluster ids assigned are exactly 0..k-1 for some k and every id is carried by at least one core point.",
"all point sets and parameters","all inputs",[DB+":dbscan,expand"])
GC="larreco/RecoAlg/GausFitCache"
p("C23","Fit-function cache returns stable, correctly shaped functions",
"GausFitCache::Get(n) returns the same function object every time for the same n, whatever other requests came between, and distinct objects for distinct n; the function is a sum of n Gaussians using parameters 3i..3i+2. Compiled caches succeed exactly for n<=MaxGaus, and a rejected request does not disturb later ones.",
"every request sequence","all request histories",[GC+".cxx:Get,CreateFunction",GC+".h:CompiledGausFitCache,FuncSum"])
HB="larreco/RecoAlg/HoughBaseAlg.cxx"
p("C24","Hough accumulator range update touches exactly its range",
"increment/decrement of a key range [b,e) changes by +1/-1 exactly the counters b..e-1 (across block boundaries) and increment_and_get_max returns the largest updated value above the given threshold and its key.",
"all counter states and ranges b<e","block boundaries and arbitrary states",[HB+":unchecked_add_range_max"])
p("C25","Adding then subtracting a point restores the Hough accumulator",
"SubtractPoint(x,y) after AddPointReturnMax(x,y) restores every counter and the accumulated-point count; points outside the declared range change nothing; the order in which points are added is irrelevant to the counters.",
"all accumulators, points and interleavings","all interleavings",[HB+":DoAddPointReturnMax,AddPointReturnMax,SubtractPoint"])
p("C26","Hough curve of a point has no gaps",
"For each point, the cells incremented at consecutive angle steps form one connected curve: the cells of each angle form a contiguous distance range which joins the range of the previous angle.",
"all points and tables","all inputs",[HB+":DoAddPointReturnMax"])
p("C27","Range set and maximum search of Hough counters",
"set(b,e,v) sets exactly the counters b..e-1 to v and returns; get_max(m) returns the largest stored counter greater than m.",
"all counter states and ranges","all states",[HB+":unchecked_set_range,get_max,GetMax"])
KD="larreco/RecoAlg/Cluster3DAlgs/kdTree.cxx"
p("C28","kd tree holds exactly the input hits",
"BuildKdTree on n>=1 hits terminates and yields a tree whose leaves are the input hits, each exactly once, with no null nodes; every split separates coordinates (left <= split value <= right).",
"all hit lists","recursion over all inputs, duplicated coordinates",[KD+":BuildKdTree"])
p("C29","kd tree lookups are sound",
"FindEntryBrute answers true exactly for hits in the tree; FindNearestNeighbors never returns the reference hit, returns only hits of the tree satisfying the compatibility requirements, each at most once.",
"all trees, reference hits, starting distances","all inputs",[KD+":FindEntryBrute,FindNearestNeighbors,consistentPairs"])
BT="larreco/MCComp/MCBTAlg.cxx"
p("C30","Back-tracker conserves charge",
"For each plane the entries of MCQSum(plane) add up to the number of electrons deposited on that plane's channels; for each hit MCQ(hit) adds up to the electrons deposited on that channel within the (tick-converted) window; for a hit list it is the entrywise sum.",
"all simulation inputs, registrations and hits","all inputs",[BT+":ProcessSimChannel,MCQ"])
p("C31","Back-tracker indices identify registered particles",
"Index(id) is the same for two registered ids iff they were registered in the same group; unregistered ids map to the invalid index; charge of unregistered particles goes to the last entry only.",
"all registration lists","all inputs incl. repeated ids",[BT+":Register,Index,ProcessSimChannel"])
p("C32","Back-tracker accessors reject invalid requests",
"No request can read outside the stored tables: invalid planes, channels or track ids are rejected or treated as 'other'.",
"all requests, including negative track ids","includes values no test author thinks of",[BT+":MCQSum,ProcessSimChannel","larreco/MCComp/MCMatchAlg.cxx:BuildMap"])
MA="larreco/MCComp/MCMatchAlg.cxx"
p("C33","Best-match cluster is the one with most charge",
"BestClusters(mc)[plane] is the lowest-index cluster on that plane with the largest positive charge from mc, or -1 if none has positive charge; ClusterCorrectness is 1 for it and at most 1 for every cluster of that plane.",
"all charge tables","all inputs and ties",[MA+":BuildMap,ClusterCorrectness,BestClusters"])
p("C34","Gaussian elimination solves the linear system",
"SolveEquations returns a vector that satisfies the linear system it builds whenever no pivot vanishes.",
"all sizes, all matrices with non-zero pivots","all sizes and values",["larreco/HitFinder/GaussianEliminationAlg.cxx:GaussianElimination,FillAugmentedMatrix"])
WT="larreco/HitFinder/HitFinderTools/WaveformTools_tool.cc"
p("C35","Erosion and dilation are sliding-window extrema",
"For each tick i at least halfWindow ticks before the end, erosion[i]/dilation[i] are the min/max of the waveform over ticks max(0,i-h+1)..i+h; later ticks repeat the last such value (window); erosion<=dilation everywhere, average and difference are derived from them.",
"all waveforms and structuring elements","incremental extremum caching; all shapes",[WT+":getErosionDilationAverageDifference"])
p("C36","Opening and closing are window extrema of erosion and dilation",
"opening/closing are the sliding-window max of erosion / min of dilation, hence opening of the erosion vector dominates it wherever the window contains the tick.",
"all inputs","all shapes",[WT+":getOpeningAndClosing"])
p("C37","Smoothing filters keep length, edges and range",
"medianSmooth returns for every interior tick the median of the nBins ticks around it and copies the edges; triangleSmooth is the 1-2-3-2-1 weighted mean and never leaves the range of its inputs; constant waveforms are unchanged.",
"all waveforms, all window sizes","all sizes incl. shorter than window",[WT+":triangleSmooth,medianSmooth"])
CS="larreco/HitFinder/HitFinderTools/CandHitStandard_tool.cc"
p("C38","Hit candidates are ordered, in range and above threshold",
"Every candidate found by CandHitStandard satisfies roiStart<=start<=center<=stop<roiEnd, has height equal to the waveform at its centre and above threshold; candidates come in time order and consecutive ones overlap in at most one boundary tick.",
"all waveforms and thresholds","recursive divide and conquer over all waveforms",[CS+":findHitCandidates"])
p("C39","Hit candidate search terminates and misses no isolated pulse",
"findHitCandidates terminates on every waveform; if the waveform (at least 5 ticks) exceeds the threshold anywhere, at least one candidate is produced and one of them sits on the global maximum.",
"all waveforms","termination and completeness",[CS+":findHitCandidates"])
p("C40","Hit grouping preserves the candidate sequence",
"MergeHitCandidates splits the candidate list into non-empty consecutive groups whose concatenation is the input; neighbouring candidates are in the same group iff the gap between them is at most one tick.",
"all candidate lists","all inputs",[CS+":MergeHitCandidates"])
SV="larreco/SpacePointSolver/Solver.cxx"
p("C41","Space-point solver conserves charge and keeps it non-negative",
"Iterating a collection wire never changes the total charge of its space charges (which equals the wire's measured charge) and never makes any of them negative; each induction wire's prediction stays equal to the sum of the charges of the space points on it.",
"all wire/space-charge configurations, any number of iterations, any alpha","all configurations and iteration counts",[SV+":CollectionWireHit,AddCharge,Iterate,SolvePair"])
p("C42","Each pairwise solver step finds the constrained optimum",
"SolvePair returns a transfer within the allowed range that minimises the pair metric over that whole range; it never takes its abort branch.",
"all pairs, all coefficients including degenerate (zero) quadratic terms","all real coefficients incl. degenerate",[SV+":SolvePair","larreco/SpacePointSolver/QuadExpr.cxx"])
p("C43","Solver iterations never worsen the global objective",
"Each pair update changes the global Metric by exactly the change of the pair's quadratic expression, so Iterate over collection wires never increases the global Metric.",
"all configurations with symmetric neighbour couplings","all configurations",[SV+":Metric,SolvePair,Iterate"])
p("C44","Every collection wire is visited once per iteration",
"One call of Iterate visits each collection wire exactly once before handling the orphans.",
"all wire counts","number theoretic; fails only for multiples of a large prime",[SV+":Iterate"])
TF="larreco/SpacePointSolver/TripletFinder.cxx"
p("C45","Doublet search equals the exhaustive search",
"DoubletHelper returns exactly the pairs (a,b) of drift-compatible hits whose wires intersect, plus every intersecting (a,bad channel) pair, no duplicates, in a fixed order.",
"all drift-sorted hit lists and geometries","two-pointer sweep vs. exhaustive search",[TF+":DoubletHelper"])
p("C46","Triplet search equals the exhaustive search",
"With no limit set, Triplets() returns exactly the combinations of an XU and an XV doublet sharing the same X hit/channel, with at most one bad channel, compatible drift and mutually close crossing points.",
"all doublet lists","merge-join vs. exhaustive search",[TF+":Triplets"])
p("C47","Triplet limit is respected",
"With maxTriplets=m>0 at most m triplets are returned per TPC.",
"all inputs","boundary counting",[TF+":Triplets"])
SC="larreco/ClusterFinder/TrackShowerSplitter/Segmentation2D/SimpleClustering.cxx"
p("C48","Simple clustering returns the connected components of touching hits",
"SimpleClustering::run returns groups that partition the input hits; two hits are in the same group iff they are linked by a chain of touching hits.",
"all hit lists","all geometries; repeated merge sweeps",[SC+":run,merge,hitsTouching"])
p("C49","Hit touching is symmetric",
"hitsTouching(a,b)==hitsTouching(b,a), and two distinct hits on the same or adjacent wires touch iff their tick intervals overlap or are adjacent.",
"all hits","includes wire number 0",[SC+":hitsTouching"])
p("C50","Simple clustering terminates on every input",
"run() returns for every input, including the empty list.",
"all inputs","termination",[SC+":merge"])
p("C51","Track candidate accessors return what was added",
"After any sequence of addHit, append and reset calls, getNHits and getHit(i) (detector, hit, rho, plane) return the hits added since the last reset, in order; GetHitIDs(d) are those of detector d; HitInTrack is membership.",
"all call sequences","all histories including reuse after reset",["larreco/Genfit/GFTrackCand.cxx","larreco/Genfit/GFTrackCand.h"])
p("C52","Polygon area is a geometric invariant",
"Polygon2D::Area is non-negative and unchanged by translating the polygon, by starting from another vertex and by reversing the vertex order; it equals the usual area for triangles.",
"all polygons","all vertex lists",["larreco/RecoAlg/ClusterRecoUtil/Polygon2D.cxx:Area"])
p("C53","Linear fit returns the weighted least-squares line",
"LinFit, when it fits (delta != 0, positive errors), returns intercept and slope minimising the weighted sum of squared residuals; exact lines are recovered exactly with zero chi2.",
"all point sets","all inputs",["larreco/RecoAlg/LinFitAlg.cxx:LinFit"])
p("C54","Convex hull encloses its points",
"Every vertex of the hull computed by ConvexHull is an input point and no input point lies outside any hull edge.",
"all lexicographically sorted point lists","all geometries",["larreco/RecoAlg/Cluster3DAlgs/ConvexHull/ConvexHull.cxx:getConvexHull"])
with open('/verif/properties.jsonl','w') as f:
    for x in P: f.write(json.dumps(x)+"\n")
print(len(P))
