{"id": "C01", "title": "Sequence container: insertion", "statement": "Inserting x at index i of the ordered sweep-line container (any node capacity B >= 4) yields exactly the old sequence with x placed at position i; it succeeds iff i <= len and panics otherwise.", "quantifier": "every capacity B >= 4, every container reachable by any history of operations, every index and element", "why_tests_cant": "tree shapes are unbounded; node splits at every level and every boundary offset cannot be enumerated", "anchors": ["src/treevec.rs: TreeVec::insert, Node::insert, child_idx"]}
{"id": "C02", "title": "Sequence container: removal", "statement": "Removing index i returns the i-th element and leaves exactly the sequence without it, including when nodes merge, rebalance or the root collapses; it succeeds iff i < len and panics otherwise.", "quantifier": "every B >= 4, every reachable container, every index", "why_tests_cant": "merge-left / merge-right / rebalance / collapse cascades depend on the whole history", "anchors": ["src/treevec.rs: TreeVec::remove, Node::remove, Node::merge_from_right, Node::merge_from_left"]}
{"id": "C03", "title": "Sequence container: reads agree with the sequence", "statement": "len, is_empty, get, get_mut, full iteration and range iteration (start <= end <= len) all observe the same sequence: get(i) is its i-th element or None past the end, iteration yields it in order, range(a,b) yields exactly the slice [a,b), and writing through get_mut(i) changes only position i.", "quantifier": "every reachable container, every index, every range", "why_tests_cant": "iterators keep an explicit stack of partially consumed levels; the interplay of stack, leaf and remaining count is history dependent", "anchors": ["src/treevec.rs: TreeVec::{len,is_empty,get,get_mut,iter,range}, TreeIter::{descend,descend_to,next}"]}
{"id": "C04", "title": "Sequence container: structural invariants over any history", "statement": "After any sequence of successful insertions and removals starting from the empty container, all leaves are at the same depth, every stored subtree count is exact, every node holds at most B and every non-root node at least B/2 entries, and no internal operation panics.", "quantifier": "every finite history of operations, every B >= 4", "why_tests_cant": "an invariant over unbounded histories", "anchors": ["src/treevec.rs: Node::check_invariants, TreeVec::insert, TreeVec::remove"]}
{"id": "C05", "title": "Sequence container: logarithmic depth", "statement": "A container whose tree has height h >= 1 holds at least 2*(B/2)^h elements, so depth is logarithmic in the number of elements.", "quantifier": "every reachable container, every B >= 4", "why_tests_cant": "asymptotic statement about all sizes", "anchors": ["src/treevec.rs: struct TreeVec (doc comment: depth is of order log_B n)"]}
{"id": "C06", "title": "Sequence container: partition point", "statement": "partition_point(pred) always returns an offset k with 0 <= k <= len such that pred is true just before k (or k = 0) and false at k (or k = len), for every predicate, sorted or not; when pred is true on a prefix and false afterwards the offset is the length of that prefix.", "quantifier": "every reachable container, every predicate", "why_tests_cant": "predicates range over all functions; the two-level search must agree with the flat one", "anchors": ["src/treevec.rs: TreeVec::partition_point, Node::partition_point"]}
{"id": "C07", "title": "Curve comparison: building the interval list", "statement": "Appending (end, order) pieces to a curve comparison keeps it well formed: consecutive orders differ, interval ends never decrease, a left-to-right change always has an undetermined piece in between, the intervals tile [start, end] without gaps, and the last end equals the last pushed end.", "quantifier": "every sequence of pushes with non-decreasing ends", "why_tests_cant": "unbounded push histories", "anchors": ["src/curve/mod.rs: CurveOrder::push, CurveOrder::check_invariants, CurveOrder::iter"]}
{"id": "C08", "title": "Curve comparison: lookups", "statement": "order_at(y), entry_at(y) and order_after(y) return the order of the interval containing y: the first whose end is >= y, respectively > y, and order_after skips over the undetermined pieces to the first determined one; order_at fails exactly for heights past the end of the covered range (not for heights before its start, whatever its doc comment says) and entry_at exactly for heights at or past the end.", "quantifier": "every well formed comparison, every y", "why_tests_cant": "for all comparisons and heights", "anchors": ["src/curve/mod.rs: CurveOrder::{order_at,entry_at,order_after}"]}
{"id": "C09", "title": "Curve comparison: flipping", "statement": "flip swaps left and right pointwise at every height, is an involution, and preserves well-formedness, so compare(a,b) and compare(b,a) give mirrored answers at every y.", "quantifier": "every comparison, every y", "why_tests_cant": "for all comparisons and heights", "anchors": ["src/curve/mod.rs: CurveOrder::flip, CurveOrderEntry::flip, Order::flip"]}
{"id": "C10", "title": "Curve comparison: y-slop widening", "statement": "with_y_slop(s) keeps the covered range and well-formedness, and a height y is classified left (right) only if the original classified it left (right); the definite pieces only shrink, by at most s at each side next to an undetermined piece.", "quantifier": "every well formed comparison, every slop >= 0, every y", "why_tests_cant": "all comparisons, all heights", "anchors": ["src/curve/mod.rs: CurveOrder::with_y_slop"]}
{"id": "C11", "title": "Curve comparison: next touch", "statement": "next_touch_after(y) terminates and never hits its unreachable branch. If it returns None, our curve is never on the right at any height after y; if it returns a crossing, the first right-ordered piece after y comes right after it; if it returns a touch, it lies in an undetermined piece starting strictly after y which is followed by a left-ordered piece, with no right-ordered piece between y and it.", "quantifier": "every well formed comparison, every y in range", "why_tests_cant": "all comparisons, all heights", "anchors": ["src/curve/mod.rs: CurveOrder::next_touch_after, NextTouch"]}
{"id": "C12", "title": "Comparison cache: stable and antisymmetric answers", "statement": "For any history of queries, the cached comparison of a pair equals the freshly computed (and slop-widened) comparison of that pair when it was first asked or its mirror image; asking again, in either direction, returns the same answer or its mirror; the expensive comparison runs at most once per unordered pair of distinct segments.", "quantifier": "every sequence of queries on every arena", "why_tests_cant": "cache contents depend on unbounded query histories", "anchors": ["src/order.rs: ComparisonCache::compare_segments"]}
{"id": "C13", "title": "Arena: every added segment is sweep-oriented and remembers its direction", "statement": "After any sequence of additions every stored segment starts at a point <= its end in sweep order, and its oriented start/end give back the order in which the input visited the points, so polylines can be read back from the arena.", "quantifier": "every sequence of polylines", "why_tests_cant": "unbounded inputs", "anchors": ["src/segments.rs: Segments::{add_points,add_closed_polyline,oriented_start,oriented_end}"]}
{"id": "C14", "title": "Arena: closed polylines form cycles", "statement": "For every closed polyline added, following contour_next from any of its segments stays within that polyline, visits all of its segments and returns to the start; contour_prev is its exact inverse; and consecutive segments share an endpoint. Other contours are unaffected.", "quantifier": "every arena history, every closed polyline", "why_tests_cant": "unbounded", "anchors": ["src/segments.rs: Segments::{contour_next,contour_prev,add_closed_polyline}"]}
{"id": "C15", "title": "Arena: open polylines form chains", "statement": "For every open polyline added through add_points, contour_prev is None exactly at its first segment and contour_next None exactly at its last, and in between they are inverse of each other.", "quantifier": "every arena history, every open polyline", "why_tests_cant": "unbounded", "anchors": ["src/segments.rs: Segments::add_points"]}
{"id": "C16", "title": "Arena: entrance and exit schedules", "statement": "After any sequence of successful additions the entrance list is sorted by start height and lists every segment exactly once with its start height; the exit list is sorted by end height and lists exactly the non-horizontal segments once each with their end height.", "quantifier": "every sequence of additions", "why_tests_cant": "unbounded", "anchors": ["src/segments.rs: Segments::{update_enter_exit,entrances,exits}"]}
{"id": "C17", "title": "Arena: open Bezier paths have open ends", "statement": "As documented for contour_prev/contour_next, the first and last segment of a non-closed subpath have no predecessor/successor. (The code violates this for add_non_closed_bez_path.)", "quantifier": "every non-closed path", "why_tests_cant": "needs all arenas", "anchors": ["src/segments.rs: Segments::{add_non_closed_bez_path,contour_prev,contour_next}"]}
{"id": "C18", "title": "Arena: failed additions", "statement": "A path addition that returns an error leaves the arena unchanged. (The code violates this: segments before the error remain stored without entrances or exits.)", "quantifier": "every path", "why_tests_cant": "needs all paths", "anchors": ["src/segments.rs: Segments::{add_bez_path,add_path_without_updating_enter_exit}"]}
{"id": "C19", "title": "Boolean operations: inside predicate", "statement": "For each fill rule and operation, the predicate used by binary_op marks a point with winding numbers (a,b) inside iff the set-theoretic combination of 'a is inside' and 'b is inside' holds, for all integer winding numbers including negative ones.", "quantifier": "all integer winding number pairs, all fill rules and operations", "why_tests_cant": "infinite domain", "anchors": ["src/lib.rs: binary_op_with_eps, FillRule, BinaryOp"]}
{"id": "C20", "title": "Boolean operations: algebra", "statement": "Union, intersection and xor are commutative under swapping the operands, xor equals union minus intersection, difference equals intersection with complement, difference(A,B) + intersection(A,B) partition A, and (0,0) is always outside, so every output is bounded.", "quantifier": "all winding pairs", "why_tests_cant": "infinite domain", "anchors": ["src/lib.rs: BinaryOp, binary_op_with_eps"]}
{"id": "C21", "title": "Boolean operations: input validation and tolerance", "statement": "binary_op returns Infinity iff the combined bounding box has an infinite coordinate, NaN iff it has a NaN one, and otherwise uses a tolerance that is at least 1e-6 and at least 64 ulps relative to the largest coordinate. (A NaN in only one path's coordinates is not detected because f64 min/max drop NaN.)", "quantifier": "all bounding boxes", "why_tests_cant": "infinite domain incl. special values", "anchors": ["src/lib.rs: binary_op"]}
{"id": "C22", "title": "Winding numbers form a commutative group-like structure", "statement": "BinaryWindingNumber addition is commutative and associative with identity 0, +=agrees with +, and a segment contributes +1/-1 to exactly its own shape's component depending on its direction.", "quantifier": "all winding numbers", "why_tests_cant": "infinite domain", "anchors": ["src/topology.rs: BinaryWindingNumber, WindingNumber"]}
{"id": "C23", "title": "Topology: rings around a point stay circular", "statement": "At every output point the half-segments form one circular doubly linked ring per point: clockwise and counter-clockwise neighbours are mutually inverse, and adding new half-segments (downward ones counter-clockwise, upward ones clockwise) or removing one preserves this and the relative order of the others.", "quantifier": "every sequence of ring operations", "why_tests_cant": "pointer structure over unbounded histories", "anchors": ["src/topology.rs: Topology::{add_segs_clockwise,add_segs_counter_clockwise,delete_half}, PointNeighbors"]}
{"id": "C24", "title": "Topology: each output segment is opened and closed once", "statement": "Every half-segment recorded for an input segment is matched with a second half exactly once, in the documented order: a horizontal piece is matched before older non-horizontal ones; at the end of the sweep no input segment has a dangling half.", "quantifier": "every event history", "why_tests_cant": "unbounded", "anchors": ["src/topology.rs: Topology::{second_half_segs,new_half_seg,open_segs}"]}
{"id": "C25", "title": "Topology: winding numbers are locally consistent", "statement": "Around each output point, the region clockwise of a half-segment has the same winding number as the region counter-clockwise of its clockwise neighbour.", "quantifier": "every processed point", "why_tests_cant": "for all arrangements", "anchors": ["src/topology.rs: Topology::{process_sweep_line_range,winding_clockwise,winding_counter_clockwise}, check_invariants"]}
{"id": "C26", "title": "Topology: merging coincident segments", "statement": "Merging coincident parallel segments removes only duplicated geometry: winding numbers on the outer sides of the merged bundle are unchanged and local consistency at the endpoints is preserved, provided that segments regarded as coincident are adjacent where they end; merging never panics and the remaining half-segments at each point still form one ring.", "quantifier": "the result of every complete sweep, every closeness test", "why_tests_cant": "for all arrangements", "anchors": ["src/topology.rs: Topology::merge_coincident"]}
{"id": "C27", "title": "Contours: every boundary segment is used exactly once", "statement": "contours(inside) terminates without panicking, and every output segment with inside on exactly one side appears in exactly one contour exactly once; no other segment appears.", "quantifier": "every consistent topology, every inside predicate", "why_tests_cant": "walks over arbitrary planar structures", "anchors": ["src/topology.rs: Topology::contours"]}
{"id": "C28", "title": "Contours: closed and simple", "statement": "In every returned contour each segment ends where the next starts, cyclically, and no output point is visited twice by the same contour.", "quantifier": "every consistent topology, every inside predicate", "why_tests_cant": "arbitrary structures", "anchors": ["src/topology.rs: Topology::contours, Contour"]}
{"id": "C29", "title": "Contours: nesting is a forest with alternating orientation", "statement": "Every contour's parent, if any, was produced earlier, so parents form a forest; a contour without parent is outer and a contour's outer flag is the opposite of its parent's.", "quantifier": "every topology, every inside predicate", "why_tests_cant": "arbitrary structures", "anchors": ["src/topology.rs: Topology::contours, Contour::{parent,outer}"]}
{"id": "C30", "title": "Contours: grouping", "statement": "grouped() partitions the contours: each contour index occurs in exactly one group, every group starts with an outer contour without parent and contains exactly it and everything nested below it, as documented.", "quantifier": "every forest of contours", "why_tests_cant": "unbounded", "anchors": ["src/topology.rs: Contours::grouped"]}
{"id": "C31", "title": "Sweep: event queue delivers everything in order", "statement": "Driving the event queue by next_y delivers sweep heights in strictly increasing order, and every entrance and exit is delivered exactly once at exactly its own height; the loop terminates when no intersection events are added.", "quantifier": "every event list", "why_tests_cant": "unbounded schedules", "anchors": ["src/sweep/sweep_line.rs: EventQueue::{next_y,entrances_at_y,exits_at_y,next_intersection_at_y}"]}
{"id": "C32", "title": "Sweep: intersection events are ordered by height", "statement": "The ordering on intersection events is a total order (reflexive, antisymmetric, transitive) whose first key is the height, so the queue's smallest element is an earliest one.", "quantifier": "all events", "why_tests_cant": "infinite domain", "anchors": ["src/sweep/sweep_line.rs: IntersectionEvent::cmp"]}
{"id": "C33", "title": "Sweep: changed intervals are merged correctly", "statement": "Merging the list of changed intervals gives disjoint, sorted, non-touching intervals that cover exactly the same positions and each horizontal segment is kept.", "quantifier": "every list of intervals sorted by start", "why_tests_cant": "unbounded lists", "anchors": ["src/sweep/sweep_line.rs: merge_adjacent, ChangedInterval::merge"]}
{"id": "C34", "title": "Sweep: positions on one sweep line are ordered", "statement": "The horizontal positions assigned to consecutive segments on a sweep line never decrease from left to right and each lies within the segment's error interval whenever the ordering is eps-consistent.", "quantifier": "every sweep-line order", "why_tests_cant": "all orders and all positions", "anchors": ["src/sweep/sweep_line.rs: SweepLineRangeIter / next_range, feasible_horizontal_positions"]}
{"id": "C35", "title": "Sweep: resolving a crossing", "statement": "Handling an intersection between two segments permutes the sweep line without losing or duplicating segments, puts the left segment after the right one (or puts the event off to a strictly later height), and, if comparisons at that height are transitive, creates no definite order violation that was not there before.", "quantifier": "every sweep-line order, every pair", "why_tests_cant": "all orders", "anchors": ["src/sweep/sweep_line.rs: Sweeper::handle_intersection"]}
{"id": "C36", "title": "Sweep: leaving segments", "statement": "After a sweep line is finished exactly the segments marked as exiting are removed, the remaining order is unchanged, and the previous-position bookkeeping is reset.", "quantifier": "every sweep line", "why_tests_cant": "all lines", "anchors": ["src/sweep/sweep_line.rs: Sweeper::advance"]}
{"id": "C37", "title": "Output events: pieces tile the event", "statement": "When the positions on a sweep line are enumerated from left to right, x strictly increases, and the pieces emitted for a segment event cover its horizontal extent exactly, each connection flag being set only at the true end.", "quantifier": "every list of events", "why_tests_cant": "unbounded", "anchors": ["src/sweep/range.rs: OutputEventBatcher::{events,increase_x,drain_active_horizontals}, HFrag"]}
{"id": "C38", "title": "Scan-line neighbour queries", "statement": "For a sequence of (height, neighbour) records in increasing height, neighbor_after(y) returns the neighbour in force just below y, and iterating yields exactly the consecutive intervals.", "quantifier": "all record sequences, all heights", "why_tests_cant": "unbounded", "anchors": ["src/topology.rs: HalfScanLineOrder::{neighbor_after,iter}"]}
{"id": "C39", "title": "Layout: it ends, and paths run from end to end", "statement": "Computing the positions of the output segments never panics and always ends; the path computed for an output segment starts at its first endpoint and ends at its second, none of its pieces ends at a height outside those of the segment, and the recorded index of the unperturbed part is the index of a piece. Approximating curves by parabolas from y0 always makes progress by more than half the accuracy or to the end.", "quantifier": "all curves, comparison results and scan-line orders, all accuracies above zero", "why_tests_cant": "real-valued inputs, unbounded number of subdivisions and of groups", "anchors": ["src/position.rs: approximate, compute_positions, next_subsegment"]}
{"id": "C40", "title": "Layout: translation invariant", "statement": "Translating a drawing vertically translates the computed positions. (Fails: pieces at negative heights are skipped by the ordering pass because the last-processed height starts at 0; proved when nothing begins above the height 0.)", "quantifier": "all drawings, all translations", "why_tests_cant": "needs all inputs", "anchors": ["src/position.rs: compute_positions"]}
{"id": "C41", "title": "Geometry: sweep order on points is total", "statement": "Points are totally ordered by y then x; the order is reflexive, antisymmetric, transitive and total on non-NaN coordinates, and strictly monotone under translation.", "quantifier": "all points", "why_tests_cant": "infinite domain", "anchors": ["src/geom.rs: Point, impl Ord; src/num.rs: CheapOrderedFloat"]}
{"id": "C42", "title": "Geometry: segments stay in their box", "statement": "For every descending segment, straight or curved, at_y(y) is the horizontal position of the only point of the segment at height y, lies between min_x and max_x, equals the endpoints at their heights, and for straight segments is monotone; lower and upper with tolerance eps are the exact ends at height y of the segment thickened by the square of side 2 eps.", "quantifier": "all descending segments, all y, all eps", "why_tests_cant": "infinite domain", "anchors": ["src/geom.rs: Segment::{at_y,min_x,max_x,lower,upper}"]}
{"id": "C43", "title": "Quadratic comparison in exact arithmetic", "statement": "Classifying the difference quadratic (right minus left) on an interval against thresholds lower < upper never fails and is sound: the pieces tile the interval, where left is reported the quadratic is at least upper, where right is reported it is at most lower, and otherwise it is between them; shifting a quadratic by s gives t -> q(t - s), adding a number adds it pointwise.", "quantifier": "all coefficients, eps, intervals", "why_tests_cant": "real-valued", "anchors": ["src/curve/mod.rs: Quadratic::{signs,shift,eval}, push_quadratic_signs"]}
{"id": "C44", "title": "Quadratic extremum on an interval", "statement": "The maximum (minimum) of a quadratic on [y0,y1] reported by the transversality test is an upper (lower) bound attained in the interval.", "quantifier": "all coefficients and intervals", "why_tests_cant": "real-valued", "anchors": ["src/curve/transverse.rs: quad_max_between, quad_min_between"]}
{"id": "C45", "title": "Approximating parabolas give valid bounds", "statement": "Subtracting two parabola estimates with error bounds gives a parabola estimate whose error bounds are valid for the difference of the curves.", "quantifier": "all estimates", "why_tests_cant": "real-valued", "anchors": ["src/curve/mod.rs: EstParab, Sub for EstParab"]}
{"id": "C46", "title": "Curve comparison: a push records its order on its whole interval", "statement": "After pushing (end, o) every height already covered keeps its order and every new height up to end has order o. (Violated when o is the opposite of the last order: the whole new interval becomes undetermined.)", "quantifier": "every well formed comparison, every pushed end and order", "why_tests_cant": "all comparisons and heights", "anchors": ["src/curve/mod.rs: CurveOrder::push"]}
{"id": "C47", "title": "Curve comparison: every later touch is reported", "statement": "If after y there is an undetermined piece with left-ordered pieces just before and after it and no crossing before it, next_touch_after(y) reports a touch there. (Violated when y itself lies in an undetermined piece; proved when our curve is definitely left at y.)", "quantifier": "every well formed comparison, every y", "why_tests_cant": "all comparisons and heights", "anchors": ["src/curve/mod.rs: CurveOrder::next_touch_after"]}
{"id": "C48", "title": "Subpath splitting", "statement": "Splitting a Bezier path into subpaths loses nothing and cuts exactly before each MoveTo: the subpaths concatenate to the path, each is non-empty, no MoveTo occurs in one except as its first element, and every subpath but the first starts with a MoveTo.", "quantifier": "every list of path elements, including empty and malformed ones", "why_tests_cant": "paths are unbounded; consecutive MoveTo, missing leading MoveTo and trailing elements combine freely", "anchors": ["src/segments.rs: SubpathIter, Subpaths, add_bez_path, add_non_closed_bez_path"]}
{"id": "C49", "title": "Stored segments keep their origin", "statement": "After any history of successful additions, each stored segment read in its input direction has exactly the control points of the corresponding input piece (a curve piece with end points at equal height becomes the straight line between them; zero-length lines vanish), and carries the input segment and parameter range it came from.", "quantifier": "every history of additions of polylines and Bezier paths", "why_tests_cant": "reversal, splitting and dropping interact over unbounded histories", "anchors": ["src/segments.rs: add_points, add_path_without_updating_enter_exit, add_polyline_without_updating_enter_exit, split_from_predecessor, input_segs", "src/geom.rs: Segment::monotonic_cubic"]}
{"id": "C50", "title": "Topology: scan-west neighbours bound the same region", "statement": "The scan-west neighbour of an output segment is an earlier output segment, and for a non-horizontal output segment the winding number on its west side equals the winding number on the east side of that neighbour (zero if it has none).", "quantifier": "every moment of every construction of a topology, every output segment", "why_tests_cant": "the neighbour is determined by the entire history of sweep lines above the segment", "anchors": ["src/topology.rs: Topology::scan_west, process_sweep_line_range, from_segments"]}
{"id": "C51", "title": "Contours: the set is on the left", "statement": "Walking along any returned contour in its direction, the selected set is immediately on the left of every segment and its complement immediately on the right.", "quantifier": "every consistent topology, every inside predicate, every segment of every contour", "why_tests_cant": "depends on the windings around every point of the walk", "anchors": ["src/topology.rs: Topology::contours", "src/topology.rs: Contour::outer"]}
{"id": "C52", "title": "Contours: outer flag and parent are right", "statement": "A contour is flagged outer iff the region just left of its first segment in sweep order is outside the set; its parent is determined by the contour through the nearest boundary segment to the left (that contour if the flags differ, its parent otherwise, none if there is no boundary segment to the left).", "quantifier": "every consistent topology, every inside predicate, every contour", "why_tests_cant": "depends on the global arrangement of all contours", "anchors": ["src/topology.rs: Topology::contours"]}
{"id": "C53", "title": "Merging: coincident groups are replaced", "statement": "After merging, each group of coincident non-horizontal segments is replaced by at most one segment that separates the regions on the two outer sides of the group, by none iff these regions agree; all other non-horizontal segments are untouched. (Proved for pairs; fails for groups of three or more: four coincident segments with net winding zero leave two.)", "quantifier": "the result of every complete sweep, every closeness test, every group", "why_tests_cant": "group sizes are unbounded; merging one pair changes what the next iteration sees", "anchors": ["src/topology.rs: Topology::merge_coincident"]}
{"id": "C54", "title": "Merging: horizontal bundles collapse", "statement": "After merging, of all horizontal segments between the same two points at most one remains; it separates the region below all of them from the region above all of them, and none remains iff these regions agree.", "quantifier": "the result of every complete sweep in which segments regarded as coincident are adjacent where they end, every bundle of horizontals", "why_tests_cant": "bundle sizes are unbounded; the loop deletes while it walks the ring", "anchors": ["src/topology.rs: Topology::merge_coincident, delete"]}
{"id": "C55", "title": "Merging: what remains is meaningful", "statement": "After merging, no remaining segment has the same winding number on both sides, and the winding number on the left of a remaining segment is that on the right of the nearest remaining segment to its left.", "quantifier": "the result of every complete sweep in which nothing starts between segments regarded as coincident", "why_tests_cant": "depends on the whole history of merges and on chains of deleted neighbours", "anchors": ["src/topology.rs: Topology::merge_coincident, scan_west"]}
{"id": "C56", "title": "From sweep events to contours", "statement": "For every complete sweep, merging and contour extraction succeed, and the contours are closed simple paths covering each boundary segment exactly once, with the set on the left, grouped into trees with outer roots; labels are as in C52.", "quantifier": "every complete sweep in which segments regarded as coincident are adjacent where they end, every inside predicate", "why_tests_cant": "end-to-end over unbounded inputs", "anchors": ["src/topology.rs: Topology::from_segments, merge_coincident, contours"]}
{"id": "C57", "title": "Scan-line orders are a west-to-east order at every height", "statement": "After any complete sweep the scan-line orders can be built without a failed assertion; at every height the non-horizontal output segments crossing it can be listed west to east so that west_neighbor_after / east_neighbor_after return exactly the previous / next segment of the list (none at the ends), the list is the sweep line at the moment the sweep leaves that height, and winding numbers along it fit, starting and ending with zero. Merging coincident segments does not change the orders.", "quantifier": "every complete sweep, every height, every output segment", "why_tests_cant": "a neighbour at one height is determined by starts and ends of other segments anywhere above; records are collected out of order from four sources", "anchors": ["src/topology.rs: Topology::build_scan_line_orders, scan_west, scan_east, scan_after", "src/topology.rs: ScanLineOrder::west_neighbor_after, east_neighbor_after"]}
{"id": "C58", "title": "Scan-line records are sorted and name living segments", "statement": "In the scan-line orders of any complete sweep, the records of each segment have strictly increasing heights, at most one per height, and a record at height y is only made for a segment crossing the height just after y and names only such a segment.", "quantifier": "every complete sweep, every record", "why_tests_cant": "records from four sources are merged and sorted; correctness depends on the order of ranges on each sweep line", "anchors": ["src/topology.rs: Topology::build_scan_line_orders", "src/topology.rs: ScanLineOrder::check_invariants"]}
{"id": "C59", "title": "Next height of a close neighbour", "statement": "close_west/east_neighbor_height_after(seg, y) returns the first height at or after y at which seg has a close neighbour on that side, or nothing if there is none. (Proved: a returned height is at or after y, closeness to a present or future neighbour begins there, and no such beginning is missed; fails in general: closeness already going on at y is not reported, and the height may precede the moment the segment becomes a neighbour.)", "quantifier": "all neighbour records and comparison results, all heights", "why_tests_cant": "unbounded interleaving of neighbour changes and changes of order", "anchors": ["src/topology.rs: HalfScanLineOrder::close_neighbor_height_after", "src/topology.rs: ScanLineOrder::close_east_neighbor_height_after"]}
{"id": "C60", "title": "Positional container: binary search is monotone in the predicate", "statement": "If predicate q is true wherever p is, partition_point(q) is not smaller than partition_point(p), even if neither predicate is partitioned.", "quantifier": "every reachable container, all pairs of predicates", "why_tests_cant": "depends on the shape of the tree; predicates are unpartitioned when the sweep line is only ordered up to tolerance", "anchors": ["src/treevec.rs: TreeVec::partition_point"]}
{"id": "C61", "title": "From segments to topology: every input segment is traced", "statement": "If Topology::from_segments returns, then every input segment is traced from its exact start point to its exact end point by a chain of output pieces at increasing heights, exactly one piece between two consecutive visits; all output pieces come from input segments; the pieces around each output point form one ring; winding numbers fit everywhere and are zero at infinity; scan-line orders and merging do not fail.", "quantifier": "all closed input contours, all comparison results, all orders met by the sweep that are consistent up to the tolerance", "why_tests_cant": "end-to-end over unbounded inputs and unbounded histories of the sweep", "anchors": ["src/topology.rs: Topology::from_segments", "src/sweep/sweep_line.rs: Sweeper::next_line, SweepLine::next_range"]}
{"id": "C62", "title": "The order on the sweep line is the geometric order", "statement": "Between two successive sweep lines no segment of the line is further right, by more than the tolerance, than a segment that comes after it. (Fails in general: a crossing can be missed, see the counterexample; proved when no handled crossing starts its rescan from a segment that is just ending.)", "quantifier": "all inputs, all comparison results sound up to a margin, all histories of the sweep, all heights", "why_tests_cant": "the scans for intersections stop early, skip far segments and rely on events found from other segments; whether a crossing is found depends on the whole history", "anchors": ["src/sweep/sweep_line.rs: Sweeper::intersection_scan_right, intersection_scan_left, scan_for_removal, insert", "src/sweep/sweep_line.rs: Sweeper::handle_intersection, handle_enter, handle_exit"]}
{"id": "C63", "title": "Quadratic: reported signs are the documented signs", "statement": "Quadratic::signs reports two roots and a sign such that the quadratic has that sign before the smaller and after the bigger root and the opposite sign between them; a reported sign of zero means zero everywhere. (Fails for decreasing linear functions, for multiples of t^2 and for constants; proved for all other quadratics.)", "quantifier": "all coefficients, all arguments", "why_tests_cant": "real-valued", "anchors": ["src/curve/mod.rs: Quadratic::signs, QuadraticSigns"]}
{"id": "C64", "title": "Transversality test is sound", "statement": "If the test says that two descending curves separate after (before) a common height, the left one not being to the right there, then the left curve is strictly left of the right one at every other height up to the given one.", "quantifier": "all pairs of monotone cubics with a common start (end) height, all end heights", "why_tests_cant": "real-valued", "anchors": ["src/curve/transverse.rs: transversal_after, transversal_before"]}
{"id": "C65", "title": "Monotonic pieces tile the curve", "statement": "Splitting a cubic into monotonic pieces gives at most three pieces that cut the parameter interval [0,1] without gaps or overlaps; each piece is exactly that part of the curve, and on each the height strictly increases or strictly decreases. A curve of constant height becomes a single straight piece with the same ends, or nothing if it is closed.", "quantifier": "all cubics", "why_tests_cant": "real-valued", "anchors": ["src/geom.rs: monotonic_pieces, force_monotonic, monotonic_cubic"]}
{"id": "C66", "title": "Parabola estimate of a cubic has valid error bounds", "statement": "The parabola that estimates a cubic passes through both of its ends, encloses signed area zero with it, and the curve's horizontal position at every height is between estimate+dmin and estimate+dmax.", "quantifier": "all descending cubics, all parameters", "why_tests_cant": "real-valued", "anchors": ["src/curve/mod.rs: EstParab::from_cubic"]}
{"id": "C67", "title": "Curve comparison: definite orders are never wrong", "statement": "intersect_cubics ends on every pair of descending cubics with a common height; its result satisfies the CurveOrder invariants and covers exactly the common heights; and wherever it says 'left' ('right') the first curve is strictly left (right) of the second at the same height. Hence it says 'close' wherever the curves meet.", "quantifier": "all pairs of monotone cubics with overlapping height ranges, all tolerances and all accuracies not above the tolerance, any number of recursive subdivisions and rotations", "why_tests_cant": "real-valued inputs, unbounded recursion", "anchors": ["src/curve/mod.rs: intersect_cubics, intersect_cubics_rec, with_rotation"]}
{"id": "C68", "title": "Curve comparison: the tolerance is kept", "statement": "For curves that are never compared after a rotation, a 'left' ('right') answer means a horizontal distance of at least the tolerance, and a 'close' answer means that some points of the curves within the tolerance of that height are horizontally within tolerance+accuracy (except on a subinterval exactly as high as the accuracy whose estimate is too wide).", "quantifier": "all pairs of monotone cubics with overlapping height ranges one of which is never flatter than 1:16, all tolerances and accuracies", "why_tests_cant": "real-valued inputs, unbounded recursion", "anchors": ["src/curve/mod.rs: intersect_cubics, intersect_cubics_rec"]}
{"id": "C69", "title": "Layout: nearby curves are put into order exactly", "statement": "When a group of nearby curves is laid out between two heights, the pieces drawn for the curves are exactly in the order of the group at every height, without any tolerance, if they start in that order; all reach the lower height. A pair is left alone only if the originals are strictly in order at all heights between.", "quantifier": "all groups of any size, all curves, all accuracies", "why_tests_cant": "real-valued inputs, any number of subdivisions, every height of every piece", "anchors": ["src/position.rs: ordered_curves_all_close"]}
{"id": "C70", "title": "Layout: curves are moved only as far as needed", "statement": "The drawn pieces of a group meet, at their joints, the rightmost of the original curve and those before it in the group; in between they deviate from the original by at most the disorder of the originals, half their distance, and a multiple of the error of the parabolas.", "quantifier": "all groups of any size, all curves, all heights", "why_tests_cant": "real-valued", "anchors": ["src/position.rs: ordered_curves_all_close"]}
{"id": "C71", "title": "Layout: unperturbed parts are the original", "statement": "A part copied from the input consists of exactly the points of the original curve between the two heights. (There can be several such parts, only the last is recorded, contrary to the documentation.)", "quantifier": "all descending curves, all heights", "why_tests_cant": "real-valued", "anchors": ["src/position.rs: next_subsegment, PositionedOutputSeg"]}
{"id": "C72", "title": "Layout: the horizontal error weight is sound", "statement": "The factor by which horizontal errors are weighted is between 0 and 1 and at least the steepness of every tangent of the curve, so an accepted parabola is within the accuracy of the curve in the Euclidean sense. (Fails if the middle control points coincide; proved otherwise.)", "quantifier": "all cubics with distinct middle control points, all parameters", "why_tests_cant": "real-valued", "anchors": ["src/position.rs: horizontal_error_weight, approximate"]}
{"id": "C73", "title": "Layout: groups are maximal and cover everything", "statement": "The layout treats groups at heights that do not decrease. A group is a maximal run of neighbours on the scan line whose consecutive members are not definitely ordered between the heights treated; every height of every output segment (that does not begin above the height 0) is treated with a group that contains the segment; only members are changed.", "quantifier": "all inputs, all comparison results and scan-line orders", "why_tests_cant": "unbounded histories of the priority queue", "anchors": ["src/position.rs: compute_positions"]}
{"id": "C74", "title": "Paths of contours: the structure of the path", "statement": "The path returned for a closed contour begins at one of its points, draws all its segments in order, each in the direction of the walk, and, where no two consecutive segments are joined, draws exactly the layout of the segments and ends where it began. The search for a starting segment cannot fail if mergeable segments follow the preceding piece of their input curve.", "quantifier": "all closed contours of any length, all topologies, layouts and input curves", "why_tests_cant": "unbounded lists; all ways in which runs of mergeable segments can occur", "anchors": ["src/topology.rs: segs_to_path, can_merge"]}
{"id": "C75", "title": "Paths of contours: re-joining the pieces of an input curve", "statement": "Where consecutive monotone pieces of one input curve are joined again, the single element drawn for them follows the parts of the original pieces between the endpoints, up to the distance by which the endpoints were moved; so the whole path is within twice that distance of the layout. (Fails if one of the pieces is laid out in several elements: the code checks only that the piece next to the joint is unperturbed, but replaces it by the part of the curve up to the far end.)", "quantifier": "all runs of any length, all input curves (lines, quadratics, cubics), all points of the path", "why_tests_cant": "real-valued; unbounded runs", "anchors": ["src/topology.rs: segs_to_path, can_merge, input_seg_t"]}
{"id": "C76", "title": "End to end: the map of the input", "statement": "In the topology computed from any list of closed paths, every monotone piece of every input curve is traced from its start to its end by output segments at strictly increasing heights, every half segment has an end point, the half segments around a point form one ring, and the winding numbers recorded on both sides of a gap between neighbours in the ring agree.", "quantifier": "all paths (lines, quadratics, cubics), all tolerances, all tags, all results of the comparisons", "why_tests_cant": "real-valued; unbounded inputs; the result depends on all comparisons of the sweep", "anchors": ["src/topology.rs: Topology::from_paths, from_segments", "src/sweep/sweep_line.rs", "src/segments.rs", "src/curve/mod.rs: intersect_cubics"]}
{"id": "C77", "title": "End to end: winding numbers", "statement": "At every point that keeps the distance eps from the input, the winding number recorded between the output segments to the left of the point and those to its right is the sum of the winding numbers of the input paths around the point, each with its tag; at heights where the leftward ray meets no endpoint and no horizontal tangent this is the signed number of crossings of the curves with the ray.", "quantifier": "all paths, all points of the plane, all tags and winding types", "why_tests_cant": "real-valued; every point of the plane", "anchors": ["src/topology.rs: Topology::from_paths, winding", "src/sweep/sweep_line.rs"]}
{"id": "C78", "title": "End to end: boolean operations", "statement": "Around every point that keeps the distance eps from the input, the contours that a boolean operation returns have winding number one if the point lies in the boolean combination of the two input shapes (under the fill rule) and zero otherwise.", "quantifier": "all pairs of paths, all fill rules and operations, all points of the plane", "why_tests_cant": "real-valued; every point of the plane; composition of all parts of the code", "anchors": ["src/lib.rs: binary_op, binary_op_with_eps", "src/topology.rs: from_paths_binary, contours, merge_coincident"]}
{"id": "C79", "title": "End to end: no panic", "statement": "For every list of closed paths the sweep comes to only finitely many sweep lines (at most one for each height at which a segment starts or ends or two segments are reported to meet), and as long as the segments on the line stay in order, up to the tolerance, no index is out of range, no lookup fails and no option is empty: the computation returns, unless it handles intersections on one sweep line without end.", "quantifier": "all paths, all tolerances, all results of the comparisons, all heights", "why_tests_cant": "panics and endless loops can depend on any coincidence of heights in unbounded inputs", "anchors": ["src/topology.rs: Topology::from_segments", "src/sweep/sweep_line.rs: next_line, handle_enter, handle_exit, handle_intersection, compute_changed_intervals, next_range"]}
{"id": "C80", "title": "End to end: inputs that do not cross", "statement": "A boolean operation on paths that do not cross themselves or each other (touching, shared end points and coincident pieces allowed) returns: it neither panics nor runs for ever, and the contours it returns wind once around the points of the boolean combination and not at all around the others that keep the distance eps from the input.", "quantifier": "all non-crossing paths and polygons, all fill rules and operations, all points of the plane", "why_tests_cant": "unbounded inputs; real-valued; termination", "anchors": ["src/lib.rs: binary_op, binary_op_with_eps", "src/topology.rs: from_paths_binary, from_polylines_binary, contours", "src/sweep/sweep_line.rs"]}
{"id": "C81", "title": "End to end: inputs that cross, in general position", "statement": "Call two pieces of paths calm if they do not cross and the comparison tells which one is to the left if they differ. A boolean operation on paths that may cross, where any two pieces that are not calm are alone wherever the comparisons leave their order open, and at the heights of end points are told apart unless they have an end point in common there, returns, and the contours it returns wind once around the points of the boolean combination and not at all around the others that keep away from the input. For polygons it is enough that edges that cross (or differ without being clearly apart anywhere) come within the tolerance of no third edge where they come within the tolerance of each other, and not of each other at the height of a vertex unless it is a vertex of both. Any number of other edges may share vertices, touch and coincide, so that inputs that do not cross are a special case.", "quantifier": "all paths and polygons in general position, all fill rules and operations, all points of the plane, all orders in which the comparisons are cached", "why_tests_cant": "unbounded inputs; real-valued; termination; every pattern of crossings", "anchors": ["src/lib.rs: binary_op, binary_op_with_eps", "src/topology.rs: from_paths_binary, from_polylines_binary, contours", "src/sweep/sweep_line.rs: next_line, handle_intersection, scan_left, scan_right, insertion_idx", "src/order.rs: compare_segments"]}
{"id": "C82", "title": "End to end: which paths are accepted", "statement": "A list of paths is accepted if and only if in every subpath the pen ends where it began (ClosePath moves it back to the beginning). Otherwise the call fails with NonClosedPath, and the error names the beginning and the end of the first subpath that is not closed, two different points; a subpath that begins with ClosePath makes the call panic unless an earlier subpath is in error.", "quantifier": "all lists of paths, all elements, curves and degenerate elements included", "why_tests_cant": "unbounded paths; every order of elements", "anchors": ["src/topology.rs: from_paths", "src/segments.rs: add_path_without_updating_enter_exit, SubpathIter", "src/lib.rs: binary_op_with_eps"]}
{"id": "C83", "title": "End to end: polygons as paths and as points", "statement": "A boolean operation on polygons without edges of length zero gives exactly the same result whether the polygons are given as lists of points or drawn as paths with MoveTo, LineTo and ClosePath.", "quantifier": "all lists of polygons without edges of length zero, all configurations, fill rules and operations", "why_tests_cant": "unbounded inputs; two code paths, one of which sorts the schedules twice", "anchors": ["src/topology.rs: from_polylines_binary, from_paths_binary", "src/segments.rs: add_closed_polylines, add_path_without_updating_enter_exit, update_enter_exit"]}
{"id": "C84", "title": "End to end: the output stays within the tolerance of the input", "statement": "For inputs that do not cross, or cross in general position, both ends of every segment of the topology that a boolean operation returns are within eps, in each coordinate, of points of the input segment that the output segment is a part of; and if the inputs are polygons, all of every output segment is within eps of one edge of the input.", "quantifier": "all paths and polygons that do not cross or are in general position, all fill rules and operations, all output segments and all their points", "why_tests_cant": "unbounded inputs; real-valued; every pattern of touching and coincident segments", "anchors": ["src/sweep/sweep_line.rs: feasible_horizontal_positions, next_range", "src/geom.rs: lower, upper, local_bbox", "src/topology.rs: process_sweep_line_range, merge_coincident", "src/lib.rs: binary_op, binary_op_with_eps"]}
{"id": "C85", "title": "End to end: the returned paths", "statement": "A boolean operation on polygons that do not cross, or cross in general position, returns a list of closed polygons (paths of the form MoveTo, LineTo\u2026, ClosePath that end where they begin). All of every edge of them is within eps of one edge of the input; a contour without a parent is outer and the parent of any other contour comes earlier and has the opposite flag; and around every point that is more than eps away from the edges of the input the returned paths wind once if the point is in the boolean combination and zero times otherwise. The same holds for polygons given as paths. The returned paths, put together, are accepted as input of the next operation and have the same winding numbers there. For inputs with curves, every output segment gets a path from its start to its end that stays between their heights.", "quantifier": "all polygons that do not cross or are in general position, all fill rules and operations, all points of the plane, all orders in which the comparisons are cached", "why_tests_cant": "unbounded inputs; real-valued; termination; the whole pipeline from the input to the returned paths", "anchors": ["src/lib.rs: binary_op, binary_op_with_eps", "src/topology.rs: from_paths_binary, from_polylines_binary, contours, compute_positions, build_scan_line_orders, segs_to_path, can_merge", "src/position.rs: compute_positions"]}
{"id": "C86", "title": "End to end: laws of the boolean operations", "statement": "For two lists of polygons in general position, at every point that is more than eps away from the edges: union, intersection and exclusive or wind around the point equally often whichever argument comes first; a shape consists of its intersection with the other and its difference; the union consists of the intersection and the two differences, the exclusive or of the two differences, which is the union without the intersection. A shape and itself (all edges coincide): union and intersection are the shape, difference and exclusive or are empty. A shape and nothing: the intersection is empty and the others are the shape. All these calls return.", "quantifier": "all polygons in general position, all fill rules, all points more than eps away from the edges, all orders in which the comparisons are cached", "why_tests_cant": "relates several runs on unbounded real-valued inputs; the runs take different branches since the segments are numbered differently", "anchors": ["src/lib.rs: binary_op, binary_op_with_eps", "src/topology.rs: from_polylines_binary, BinaryWindingNumber, contours", "src/sweep/sweep_line.rs"]}
{"id": "C87", "title": "End to end: curves in general position", "statement": "A boolean operation on paths with lines and curves returns, and the contours it returns wind once around the points of the boolean combination and not at all around the others that keep away from the input, whenever the monotone pieces of the paths satisfy conditions on their geometry alone: wherever two pieces that cross (or that differ without being clearly apart anywhere) come within the tolerance of each other, there is no third piece within the tolerance, and at the height of an end point they come near each other only if they have the end point in common. The tolerance is eps plus what the parabolas by which the code estimates the curves leave open, which is bounded by the control points of parts of height eps/2; no two pieces may be nearly horizontal in the same direction at a common height.", "quantifier": "all paths in general position, all fill rules and operations, all points of the plane that keep away from the input, all root finders that find roots, all orders in which the comparisons are cached", "why_tests_cant": "unbounded inputs; real-valued; termination; estimates of curves by parabolas; every pattern of crossings", "anchors": ["src/lib.rs: binary_op, binary_op_with_eps", "src/topology.rs: from_paths_binary, contours", "src/curve/mod.rs: intersect_cubics, EstParab::from_cubic, with_y_slop, next_touch_after", "src/sweep/sweep_line.rs", "src/order.rs: compare_segments"]}
{"id": "C88", "title": "The laid-out path stays close to its input segment", "statement": "Every point of the path that the layout gives to an output segment that is not horizontal lies between the heights of the two ends of the segment, and its horizontal distance from the input segment that it is a part of is at most 3 d + 2 w + 2 ((4 + 20 s) a + s h), where d is the distance of the ends of output segments from their input segments, w the width of the groups of neighbours that the comparison does not tell apart, h the height of such groups if they contain curves, s \u2264 1 bounds how far curves move to the side per height, and a is the accuracy.", "quantifier": "all numbers of output segments, all scan-line orders and comparisons that satisfy the contract of C39, all root finders that find roots, all points of the paths", "why_tests_cant": "unbounded inputs; real-valued; every order in which groups of neighbours are treated, including groups that overlap groups treated before", "anchors": ["src/position.rs: compute_positions, ordered_curves_all_close, approximate, next_subsegment"]}
{"id": "C89", "title": "The order of two segments does not depend on which is asked first", "statement": "Unless two segments are nearly horizontal in the same direction over a common range of heights of at least the accuracy (the code then compares them after a rotation by 45 degrees), comparing b with a gives the same heights as comparing a with b, with left and right exchanged; so what the comparison cache says does not depend on the order in which it was filled or on which direction of a pair was computed first.", "quantifier": "all pairs of descending lines and curves that are never rotated, all positive tolerances and accuracies, all root finders that find roots, all numbers of steps, all orders in which a cache is filled", "why_tests_cant": "real-valued recursion of unbounded depth; relates two runs on all pairs of curves", "anchors": ["src/curve/mod.rs: intersect_cubics, intersect_cubics_rec, push_quadratic_signs, with_y_slop, flip", "src/order.rs: compare_segments"]}
{"id": "C90", "title": "End to end: the returned paths of curves", "statement": "A boolean operation on paths with lines and curves in general position, none of whose curves is cut into monotone pieces, returns a list of closed paths: consecutive drawn segments join, and the last joins the first. Every point of a drawn segment is within a stated distance, horizontally, of a point of the input at the same height, or lies on a horizontal line whose ends are within eps of one input segment; a contour without a parent is outer and the parent of any other contour comes earlier and has the opposite flag; and around every point that keeps more than the stated distance from the input the drawn paths wind once if the point is in the boolean combination and zero times otherwise. The stated distance is 3 (1 + m) eps + 2 w + 2 ((1 + 5 s) eps + s h), where m and s bound how far the pieces move to the side per height, and w and h are the width and height of groups of pieces that the comparison does not tell apart.", "quantifier": "all paths in general position whose curves are monotone in y, all fill rules and operations, all points of the plane that keep away from the input, all root finders that find roots, all orders in which the comparisons are cached", "why_tests_cant": "unbounded inputs; real-valued; termination; the whole pipeline from the input to the returned B\u00e9zier paths", "anchors": ["src/lib.rs: binary_op, binary_op_with_eps", "src/topology.rs: contours, compute_positions, build_scan_line_orders, segs_to_path, can_merge", "src/position.rs: compute_positions, ordered_curves_all_close, approximate", "src/curve/mod.rs: intersect_cubics"]}
{"id": "C91", "title": "End to end: laws of the boolean operations for curves", "statement": "For two paths with curves as in C90, at every point that keeps the stated distance from the input: union, intersection and exclusive or wind around the point equally often whichever argument comes first; a shape consists of its intersection with the other and its difference; the union consists of the intersection and the two differences, the exclusive or of the two differences, which is the union without the intersection; a shape and nothing gives the shape, or nothing for the intersection. All these calls return. The returned paths, put together, are accepted as input of the next operation and have the same winding numbers there.", "quantifier": "all paths in general position whose curves are monotone in y, all fill rules, all points of the plane that keep away from the input, all orders in which the comparisons are cached", "why_tests_cant": "relates several runs on unbounded real-valued inputs; the runs take different branches since the segments are numbered differently", "anchors": ["src/lib.rs: binary_op, binary_op_with_eps", "src/topology.rs: from_paths_binary, BinaryWindingNumber, contours, segs_to_path", "src/segments.rs: add_bez_path, SubpathIter"]}
{"id": "C92", "title": "The root finder of the estimates", "statement": "solve_cubic_in_unit_interval returns exactly the real roots of a cubic whose leading coefficient is not much smaller (10^-7 times) than the next two. For other cubics it can miss roots, but a function whose derivative is the cubic exceeds, on the unit interval, its values at the ends and at the returned roots by at most an explicit amount (10^-5 if the coefficients are at most 1). So the bounds that an estimate gives for a descending curve hold up to that amount.", "quantifier": "all coefficients (for the second part: the steps of Newton's method are bounded by 1/3), all points of the unit interval, all descending curves", "why_tests_cant": "real-valued; the function is continuous in none of the thresholds; no sample of cubics shows a bound", "anchors": ["src/curve/mod.rs: solve_cubic_in_unit_interval, EstParab::from_cubic"]}
{"id": "C93", "title": "Heights on a curve with a root finder of limited accuracy", "statement": "If the roots are found to within the accuracy that is asked for (10^-12 times the largest coefficient), solve_t_for_y returns a parameter in the unit interval whose height differs from the one asked for by at most the vertical speed of the curve times the accuracy; solve_x_for_y is as close to the exact position, with the horizontal speed; the part of a curve between two heights begins and ends exactly at the heights, follows the curve, and misses none of it, up to the speed times the accuracy; lower and upper are bounds for the points of the curve near a height, up to the same amount. The part need not be descending.", "quantifier": "all curves (descending ones for the parts), all heights between the ends, all root finders of that accuracy, all points", "why_tests_cant": "real-valued; holds for every behaviour of the root finder within its accuracy", "anchors": ["src/curve/mod.rs: solve_t_for_y, solve_x_for_y, y_subsegment", "src/geom.rs: Segment::local_bbox, lower, upper"]}
{"id": "C94", "title": "End to end: for polygons the root finder does not matter", "statement": "The result of a boolean operation on polygons, the contours as well as the returned paths, is the same whatever the root finder of the estimates returns. So the results on polygons (C81, C85, C86) hold for the root finder of the code, which misses roots (C92): the returned paths are closed polygons that keep to the input within eps and wind once around the points of the boolean combination and not at all around the others.", "quantifier": "all polygons, all root finders, all fill rules and operations, all orders in which the comparisons are cached", "why_tests_cant": "relates runs with arbitrary root finders on unbounded real-valued inputs", "anchors": ["src/curve/mod.rs: solve_cubic_in_unit_interval, intersect_cubics", "src/position.rs: compute_positions", "src/lib.rs: binary_op_with_eps"]}
{"id": "C95", "title": "Bounding boxes and the automatic tolerance", "statement": "Topology::bounding_box contains every point of every input segment and is contained in every box that does; for polygons it is the smallest box with all corners, for paths without horizontal curves the smallest box with all points of the path. The polygons that a boolean operation returns stay in this box enlarged by the tolerance. binary_op chooses as tolerance the larger of 10^-6 and 2^-46 times the largest absolute value of a coordinate of a point of its arguments (so 10^-6 for coordinates up to 7*10^7), and its result on polygons in general position for this tolerance is right in the sense of C85.", "quantifier": "all segments, all polygons, all paths with lines and curves, all boxes; for the last part all polygons in general position, all fill rules and operations", "why_tests_cant": "real-valued and unbounded; minimality ranges over all boxes", "anchors": ["src/topology.rs: Topology::bounding_box", "src/lib.rs: binary_op, binary_op_with_eps"]}
{"id": "C96", "title": "End to end: any number of paths, any winding number, any region", "statement": "Topology::from_paths takes any number of tagged paths and any type of winding numbers, and contours any predicate on them. If the number that a tag gives to a segment is negated with its direction, both return for paths in general position, and the contours wind around the region that the predicate selects: the winding number of a point is the sum, over the paths, of the number of turns of the path times the number of its tag; the contours wind once around the points with a selected number if the number 0 is not selected, and -1 times around the points that are not selected if it is. For polygons the returned paths are closed polygons near the input, nested as a forest, with these winding numbers, whatever the root finder does. Topology::<i32>::from_path is the instance with one path and integers.", "quantifier": "all lists of tagged paths in general position (polygons in general position for the returned paths), all commutative groups as winding numbers, all predicates, all points away from the edges", "why_tests_cant": "quantifies over all types of winding numbers and all user-supplied predicates", "anchors": ["src/topology.rs: Topology::from_paths, from_path, contours, WindingNumber, impl WindingNumber for i32"]}
{"id": "C97", "title": "End to end: boolean combinations of any number of shapes", "statement": "With one tag per shape and a winding number that counts the turns of each shape separately, from_paths and contours compute every boolean combination of any number of shapes that leaves out the points in none of them: for polygons in general position the returned paths are closed polygons near the input, nested as a forest, that wind once around the points of the combination and not around the others; for paths with curves in general position the contours do. binary_op is the instance with two shapes. Negating the predicate reverses the winding numbers of the contours.", "quantifier": "all numbers of shapes, all polygons and paths in general position, all boolean functions of the shapes, both fill rules, all points away from the edges", "why_tests_cant": "quantifies over the number of shapes and all boolean functions of them", "anchors": ["src/topology.rs: Topology::from_paths, contours, WindingNumber", "src/lib.rs: binary_op_with_eps"]}
{"id": "C98", "title": "End to end: the returned paths for any number of paths with curves", "statement": "For any number of tagged paths with curves, in general position and with curves that are monotone in y, any winding number and any predicate that does not select the outside, from_paths and contours return, and the returned paths are closed, follow the input up to an explicit distance, are nested as a forest, and wind once around the points with a selected winding number and not around the others. In particular for every boolean combination of any number of shapes, and for Topology::<i32>::from_path with any predicate on the integers.", "quantifier": "all lists of tagged paths as in C90, all commutative groups as winding numbers, all predicates, all boolean functions of any number of shapes, all points that keep away from the input", "why_tests_cant": "quantifies over all types of winding numbers, all user-supplied predicates and real-valued inputs", "anchors": ["src/topology.rs: Topology::from_paths, from_path, contours, segs_to_path, WindingNumber", "src/position.rs: compute_positions"]}
{"id": "C99", "title": "The callback interface of the sweep", "statement": "sweep::sweep(segments, eps, callback) calls the callback at heights that never decrease, only about segments of the input. At one height the calls come in blocks: within a block they go from left to right, and every segment of an earlier block is on the sweep line to the left of every segment of a later one. For every segment the calls describe its whole way: stops at strictly increasing heights, the first exactly at the start of the segment and not connected to anything above, the last exactly at its end and not connected to anything below, all others connected on both sides; where the segment moves sideways at a stop, the calls for it are consecutive pieces, from left to right, that cover the stretch without gap or overlap, and only the pieces at the two ends are connected. This holds for all segments, also if they are not in general position, whenever sweep returns; in general position it returns, and every reported position is within eps of its segment.", "quantifier": "all collections of segments from closed paths with lines and curves, all tolerances; the return and the accuracy for all inputs in general position", "why_tests_cant": "quantifies over all inputs and over the whole sequence of calls", "anchors": ["src/sweep/mod.rs: sweep", "src/sweep/range.rs: SweepLineRange::events", "src/sweep/sweep_line.rs: Sweeper::next_line, SweepLine::next_range", "src/sweep/output_event.rs: OutputEvent"]}
{"id": "C100", "title": "The outside selected", "statement": "If the predicate selects the winding number of the unbounded region (everything but a shape), from_paths and contours still return, and the returned closed paths, which run near the boundaries of the input, have winding number -1 around every point that is not selected and 0 around every point that is, away from the boundaries. The nesting is still a forest with parents before children, contours without parent flagged outer, and flags that alternate. In particular for every boolean combination of any number of shapes that contains the points in none of the shapes.", "quantifier": "all inputs in general position (any number of tagged shapes of polygons; paths with curves), all winding numbers in an abelian group, all predicates that select 0, all points away from the boundaries", "why_tests_cant": "quantifies over all inputs, predicates and points of the plane", "anchors": ["src/topology.rs: Topology::from_paths, Topology::contours, Contour", "src/lib.rs: BinaryOp"]}
{"id": "C101", "title": "End to end: how the polygons are written down does not matter", "statement": "If the polygons of the input are given in another order, each from another vertex on, and all of a shape in the other direction (with the even-odd rule: each of them in any direction), the operations still return, and the region of the result is the same: the returned paths wind equally often around every point away from the edges. For the boolean operations on two shapes and for every boolean combination of any number of shapes.", "quantifier": "all polygons in general position, all reorderings, rotations and reversals, both fill rules, all operations and combinations, all points away from the edges", "why_tests_cant": "quantifies over all inputs, all ways to write them down and all points of the plane", "anchors": ["src/lib.rs: binary_op", "src/topology.rs: Topology::from_paths, Topology::contours", "src/segments.rs: Segments::add_closed_polyline, Segments::add_bez_path"]}
{"id": "C102", "title": "End to end: the region moves with the input", "statement": "If all polygons of the input are moved by the same vector (and stay at coordinates that are not astronomically large compared with the tolerance), the operation still returns, and the region of the result is moved by the same vector: the returned paths wind equally often around every point away from the edges as the paths of the original result do around the point before moving.", "quantifier": "all polygons in general position, all vectors, both fill rules, all operations, all points away from the edges", "why_tests_cant": "quantifies over all inputs, vectors and points of the plane", "anchors": ["src/lib.rs: binary_op", "src/topology.rs: Topology::from_polylines_binary, Topology::contours"]}
{"id": "C103", "title": "End to end: the region of the mirrored input is the mirrored region", "statement": "If all polygons of the input are mirrored (left and right exchanged), the operation still returns, and the region of the result is the mirror image of the original region, away from the edges, although the sweep treats left and right differently.", "quantifier": "all polygons in general position, both fill rules, all operations, all points away from the edges", "why_tests_cant": "quantifies over all inputs and points of the plane", "anchors": ["src/lib.rs: binary_op", "src/topology.rs: Topology::from_polylines_binary, Topology::contours", "src/sweep/sweep_line.rs: SweepLine"]}
{"id": "C104", "title": "End to end: the region of the input turned upside down", "statement": "If all polygons of the input are turned upside down (heights negated), the region of the result is the original region turned upside down, away from the edges and at all heights without a vertex, although the sweep goes from top to bottom.", "quantifier": "all polygons such that they and their images are in general position, both fill rules, all operations, all points away from the edges and not at the height of a vertex", "why_tests_cant": "quantifies over all inputs and points of the plane", "anchors": ["src/lib.rs: binary_op", "src/topology.rs: Topology::from_polylines_binary, Topology::contours", "src/sweep/mod.rs: sweep"]}
