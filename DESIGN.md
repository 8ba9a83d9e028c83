# Formal model of jneem/linesweeper in Lean 4

## Layout

* `lean/Verif/<Area>/Model.lean` – executable, total functions that follow the Rust
  function by function, each citing the file and lines in `/repo`.
* `lean/Verif/<Area>/Lemmas*.lean` – helper lemmas (no claims are made by these).
* `lean/Verif/<Area>/Props.lean` – the property theorems, stated against a small
  specification (`List` operations, pointwise functions, ...), each followed by an
  `example` showing a concrete non-trivial instance of its hypotheses.

## Trusted base

* Lean 4.33.0's kernel; the axioms `propext`, `Classical.choice`, `Quot.sound` (checked by
  `#print axioms`); no others.
* Mathlib definitions used in statements (linear orders, ordered fields, `List.Perm`, ...).
* The transcription of the Rust source into the `Model.lean` files. The code was read, not run.
* General simplifications
  * `usize` is `Nat` (no wrap-around at 2^64), `i32` winding numbers are `Int` (no overflow).
  * A Rust panic (`unwrap`, index out of bounds, `assert!`, `debug_assert!`, `unreachable!`) is
    modelled by `none`, so "does not panic" is a theorem (`= some _`), never an assumption.
  * `&mut` methods return the new value.
  * `f64` is replaced by a type with exactly the structure the code uses: a linear order where only
    comparisons matter; abstract monotone functions where the code does `y - slop`/`y + slop`
    (true of IEEE rounding); a linear ordered field (exact arithmetic) where the code does real
    arithmetic. NaN is modelled only where a property is about NaN (C21).
  * Memory, allocation and performance are not modelled.

(Per-area details and the per-property plan are below; status is in MANIFEST.json.)

## Plan per property

| id | model | method |
|----|-------|--------|
| C01–C05 | `TreeVec`: B-tree nodes with capacity `B` (parameter, `4 ≤ B`), `none` = panic | refinement to `List`, induction on height; histories by induction on the op list |
| C06 | same + std's `partition_point` binary search | loop invariant + induction on height |
| C07–C11 | `CurveOrder` over an arbitrary linear order (slop: monotone maps) | induction on the entry list / push history |
| C12 | cache as a finite map, comparison function a parameter | invariant over query histories |
| C13–C16 | `Segments` arena, points an arbitrary linear order with a height | invariant over add histories |
| C17, C18 | same, Bezier path ingestion as element lists | counterexample theorem + `_partial` |
| C19–C20 | inside predicates over `Int` winding pairs | case analysis, `omega` |
| C21 | `f64` special values as an inductive type | case analysis; counterexample for one-sided NaN |
| C22 | `BinaryWindingNumber` | algebra |
| C23–C25 | point rings as maps half-segment → (cw, ccw) | ring invariant preserved by every operation |
| C27–C29, C51, C52 | `Contours`: contour extraction on any consistent topology, loops with an iteration budget | the step to the next boundary segment is an injective map on a finite set; invariants of the walk and of the outer loop |
| C26, C53–C56 | `Merge`: `merge_coincident` on the result of any sweep execution | deletion keeps the rings; loop invariant over the segment index: what has been merged so far and the pending winding defect of a bundle |
| C30 | `grouped` on a parent list | induction |
| C31–C32 | event queue as two sorted lists + intersection set | invariant over driver histories |
| C33 | `merge_adjacent` | induction |
| C34–C36 | sweep line as list with interval comparator | list reasoning, weak-order invariant |
| C37 | output batcher as state machine | invariant over steps |
| C38 | sorted records | induction |
| C57, C58 | `Scan`: `build_scan_line_orders` after any execution of the sweep line by line | abstract invariant of the neighbour records along the sweep (`AInv`), then the four collecting loops |
| C59 | `close_neighbor_height_after` | list reasoning, counterexamples |
| C60 | `TreeVec` | binary search is monotone in the predicate, induction on height |
| C61 | `Sweep` + `Topo` + `Scan` + `Merge`: `from_segments` end to end | invariant of the reached lines (`Reached.spec`), each line is an execution of the `Topo`/`Scan`/`Merge` machines |
| C62 | `Sweep`: the scans for intersections over any environment with sound comparisons | invariant `Crossings`: for every wrong pair to come there is a witness (an event in the queue, a segment that ends before, …) between them; counterexample on straight segments |
| C39 | `Pos`: all of `position.rs` | halving ends because short intervals are accepted; measure on the heights still to be treated for the main loop (`Run`) |
| C40 | `Pos`: the input moved vertically | equivariance of every function (`Shift`); counterexample |
| C69–C71 | `Pos`: `ordered_curves_all_close` | point sets traced by pieces (`Trace`), running maxima of control points give ordered quadratics; C64 for pairs left alone; monotone curves for copies |
| C72 | `Pos`: `horizontal_error_weight`, `approximate` | convexity of the tangent cone; tangent line argument along the curve |
| C73 | `Pos`: the main loop of `compute_positions` | invariant over the priority queue; scans follow the list of segments alive at a height |
| C74 | `Path`: `segs_to_path`, `can_merge`, `input_seg_t` | invariant of the loop: a decomposition into maximal runs of joined segments; cyclic lists |
| C75 | `Path`: the same, with the formulas of kurbo for reversing and cutting Bézier curves | parameters agree at the joints, intervals of parameters fill up; counterexample |
| C76 | `Full`: arena, comparisons (`intersect_cubics` + `with_y_slop`), sweep and topology put together | the sweep model instantiated; `Valid` follows from the arena and the comparisons; order of the line is a hypothesis where curves cross |
| C77 | `Full`: winding numbers of the input by counting crossings, compared with the recorded ones | induction over the lines, sums over the output segments to the left |
| C78 | `Full`: `binary_op` = arena, sweep, merging, contours | C77 + C26/C53 (merging of coincident pairs) + C30 (contours separate inside and outside); planar inputs without further conditions |
| C79 | `Sweep/Total*`, `Full/Total`: every operation of the sweep succeeds | invariants of the line and of the queue (`Ready`, `Live`: the segments of an event are on the line at its height and go on below it), bound on the heights of events; loop over the intersections of one line: only a bound in terms of fuel |
| C80 | `Full/Total`: `binary_op` on non-crossing inputs | C79 + events of non-crossing segments are touches and beget only later events, so a line has at most n² of them; C26, C27 (merging and contours return), C78 |
| C81 | `Sweep/Generic*`, `Full/General`, `Full/Loose`: `binary_op` on crossing inputs in general position | segments that cross are alone where the comparisons leave their order open, all others are ordered once and for all (as in C78), so the line stays sorted with respect to "surely left" together with that order; each handled intersection removes a due pair or an idle event; straight edges that are not told apart meet up to the tolerance (`ish_meet`, from C10 and C68) |
| C82 | `Full/Accept`: the outcome of `from_paths` up to the sweep, compared with a pen that follows the elements | induction over elements, subpaths and paths; the curves of a subpath lead from the pen's start to its end |
| C83 | `Full/Outline`: `binary_op` on polygons drawn as paths and `from_polylines_binary` | the arenas are equal; sorting a part of the schedule first changes nothing (`Segs/Stable`: stability of the sort) |
| C84 | `Sweep/Accurate`, `Full/Accurate`: the positions of `feasible_horizontal_positions` and `next_range` through `process_sweep_line_range` and `merge_coincident` | on every line the error intervals are in order or overlap (`Env.Tidy`: from planarity, or in general position because segments that are not told apart meet, `ish_meet`), so every position lies in `[lower, upper]` of its segment; the positions of a thickened segment at a height are an interval (intermediate values); convexity for straight edges |
| C85 | `Full/Paths` (the scan-line orders, the layout, the paths of the contours: `layout`, `drawContours`, `binaryOpPaths`), `Full/Layout`, `Full/Draw`, `Full/Returned` | the contracts of C39 and C57 are established for what the sweep returns (`layout_ok`); straight segments stay straight; a segment that is not part of a curve is never merged; the chord of an output segment is within eps of its input segment (C84), so away from the edges it is on the same side of a point, and C80/C81 carry over to the returned paths |
| C86 | `Full/Laws`: several runs of `polylineOpPaths` (C85) on the same polygons | general position does not depend on the numbering of the edges (`LoosePolygons.exchange`), so C85 gives the winding number of each of the results, which are compared; a shape and itself: all edges twice, which planarity allows |
| C87 | `Geom/Rough` (how far apart the lower and the upper parabola of a curve are, from its control points), `Full/Curves`: a condition on the geometry of the pieces | a part of height eps/2 whose control points are within X of its upper end is estimated up to 10 X plus the padding (`spread_extent`, `uncertainty_extent`); so where the comparison leaves the order open the pieces come within 3/2 eps + ρ of each other (`ish_near`), pieces that are clearly apart are told apart (`curves_resolved`), and `General` follows (`general_of_curves`), hence C81; example with closed forms: `Full/CurveExample` |
| C88 | `Pos/Deviation`: the layout `Pos/Model`, on any input that satisfies the contract `Ok` | induction on the history of C73 (`History`): what is copied follows the input segment up to the error of the point where it begins (`copy_dev`), the strips of a group are between its members up to its width and the error of the parabolas (`strips_dev`, with `parabError_steep` from C66 and C87), the last piece is moved to the end point (`finish_dev`) |
| C89 | `Geom/IModel` (`intersectCubics`), `Full/Model` (`compareNew`, `compare`) | induction on the recursion: every test and every estimate is symmetric, the signs of a quadratic and of its negation are flipped (`quadraticSigns_flip`), `push` and `with_y_slop` commute with `flip`; the rotation, which is not symmetric, is excluded |
| C90 | `Full/Paths` (layout, drawing), `Full/Model` | the layout within `driftOf` of the input (C88 for one bundle, chained over the groups of the scan line: `layout_all`); a path that keeps to one side of a point at every height winds like its chord (`wind_left`, `wind_right`); the contours wind like C87 says; `segs_to_path` merges nothing when no curve is cut (`segsToPath_unsplit`) |
| C91 | `Full/Paths`, `Full/Model` | C90 for both orders of the arguments and for the first alone: the conditions on the pieces are inherited along an injection of the numbers of the pieces (`Part`, `part_exchange`, `part_first`); the subpaths of the returned paths, put together, are the returned paths (`single_subpaths`) |
| C92 | `Geom/Solver`, `Geom/SolverBounds` | the root finder as it is (dropped coefficients, three Newton steps with bounded size). A step increases the value at most by a factor (Taylor), so an antiderivative changes little on the way to the returned root; the extrema of the antiderivative of the simplified cubic are found exactly. The bounds of the estimate by comparison with an ideal root finder: its bounds are attained on the hybrids |
| C93 | `Geom/Inexact` | the functions on heights with a root finder that is only promised to be within the accuracy asked for; the coordinates are Lipschitz with the largest control vector (`bez3_lip`), the part differs from the exact subsegment only by the correction of its end heights |
| C94 | `Geom/LineFree`, `Full/LineFree` | the estimates of lines are exact whatever the root finder does (`fromCubic_straight`), parts and rotated copies of lines are lines; by induction on the depth the comparison of lines does not depend on the root finder (`intersectRec_free`), nor does the layout of lines, which never asks for it. Then C81, C85, C86 for an ideal root finder |
| C95 | `Full/Box` | the box of a curve is attained (compactness), so that a box contains it if and only if it contains all points; the union is a least upper bound; the monotone pieces of a curve cover it (C65). The tolerance from the boxes; `binary_op` on polygons from C94 |
| C96 | `Full/Generic` | the proofs of C81 and C85 for an arbitrary group of winding numbers and an arbitrary predicate (`gap_general`, `merged_total`, `draw_any`); the arena of tagged polygons does not depend on the tags (C83) |
| C97 | `Full/Many` | instances of C96 with the group of functions from the shapes to the integers; the segments do not depend on the tags |
| C98 | `Full/ManyCurves` | the proof of C90 for an arbitrary group of winding numbers and an arbitrary predicate (`layout_any`, `draw_curves`), with C96 for the contours |
| C99 | `Sweep/Events`, `Sweep/EventOrder`, `Full/Events` | `sweep::sweep` as the list of its calls, with the same `nextLine` and `nextRange` as the driver and `runEvents` of the ranges; induction over the lines (each segment is in at most one range of a line, `rangeSegs_disjoint`, and in one where it starts or ends, `Finished.covers`), with C37 for the pieces of a range; no order of the line is needed for the trace; the return follows from that of the driver, the accuracy from `Emitted.within` |
| C100 | `Full/Complement` | the same run as C97 and C98; `draw_curves` gives the winding of the returned paths as the difference of the selection at the point and at the unbounded region, which is now selected |
| C101 | `Full/Redraw` | the undirected edges of both inputs are a permutation of each other (`closedEdges_rotate`, `closedEdges_reverse`); general position only depends on them (`SameLines.loose`, along an injection of the edge numbers); then C94, C97 and C100 for both inputs |
| C102 | `Full/Translate` | every part of general position except `Moderate` is translation invariant (`Moved`, `LoosePolygons.shift`), and so is the winding number of polygons (`wind_shift`); then C94 for both inputs |
| C103 | `Full/Mirror` | general position is invariant under exchanging left and right (`Flipped`, `LoosePolygons.mirror`); the winding number changes its sign, because a closed polygon crosses a horizontal line equally often in both directions (`under_sum`, `cross_mirror`); then C94 for both inputs |
| C104 | `Full/Upside` | C94 for both inputs; the winding number changes its sign at heights without a vertex (`cross_turn`). General position is asked of both inputs, because the condition that edges are clearly apart (`Separated`) is not symmetric between top and bottom |
| C41 | `Geom`: the order of `CheapOrderedFloat` and `Point`, coordinates in any linear order plus NaN | case analysis; counterexample with NaN |
| C42 | `Geom`: `Segment::{at_y, min_x, max_x, lower, upper, local_bbox, is_horizontal}` for lines and cubics over ℝ | intermediate value theorem, monotonicity from the derivative, extrema of the sub-curve |
| C43 | `Geom`: `monic_quadratic_roots`, `push_quadratic_signs`, on the `CurveOrder` of C07–C11 | factorisation over the two roots, soundness of every push |
| C44, C64 | `Geom`: `quad_max_between`, `transversal_after/before` | vertex form; mean value theorem along each curve |
| C45, C66 | `Geom`: `EstParab` | algebra; integral by an explicit antiderivative; extrema of the hybrid quadratics; maximum over the family of curves between the hybrids (`EstMono`) |
| C67, C68 | `Geom/I*`: `intersect_cubics` with rotations | soundness of one step (`IStep`), of a rotation by comparing two increasing functions with their inverses (`ITwist`, `IRot`); termination by (height × extent in the other frame, flag) (`ITerm`); fuel monotonicity (`IFuel`) |
| C63 | `Geom`: `Quadratic::signs` with roots in `EReal` | factorisation; counterexamples |
| C65 | `Geom`: `monotonic_pieces` | sign of the quadratic speed between its roots |
| C46–C47 | same as C07–C11 | counterexample theorem + `_partial` |
| C48–C49 | same as C13–C18 | induction over elements / refinement over histories |

Not expressible: actual IEEE rounding error of the numeric kernels (the `f64` bit-level behaviour of
`sqrt`, `acos`, root finding), wall-clock performance, allocation failure. These are left out of every
statement above; the floating-point parts are proved for exact arithmetic only and say so.

## Findings (the code does not do what a doc comment or a user would expect)

Each is recorded as a property whose full statement is false, with a Lean counterexample where the
area is modelled.

1. `CurveOrder::push` on a Left→Right flip marks the whole new interval undetermined (C46).
2. `next_touch_after` started inside an undetermined piece misses every later touch (C47).
3. `order_at(y)` does not panic for `y` before the start (C08).
4. TreeVec needs node capacity ≥ 4; `range` with `start > end` on an internal root wraps in release builds.
5. `binary_op` reports NaN only if every coordinate of every bounding box is NaN, because `f64::min`/`max`
   drop NaN (C21).
6. `ComparisonCache::compare_segments(i, i)`: the flipped entry is overwritten by the forward one (C12).
7. `add_non_closed_bez_path` never stores `None` links, contrary to the docs of `contour_next` (C17).
8. A failing `add_bez_path` leaves segments in the arena that are in no schedule (C18).
9. `contours`: if the set has a hole that touches the outer boundary at the topmost point of the contour, the walk splits
   there, the *hole* is kept as the contour and the outer boundary is extracted as its child with `outer = false`
   (C52, `C52_touching`). The comment in the code about not resetting `last_visit` is settled: C28 holds without it.
10. `merge_coincident` merges segment `k` only into the segment `k-1` that is still there, so a group of `n` coincident segments
    is merged in pairs; four coincident segments with net winding zero leave two behind, contrary to its doc comment
    (C53, `C53_four`). A lone horizontal segment between two points is its own neighbour and deletes itself if its two sides agree.
11. `merge_coincident` checks that the candidates are neighbours where they start (ring and `scan_west`), but not where they end:
    if something starts between them further down and ends at the same point, merging makes the winding numbers inconsistent
    (`C26_wedge`). The theorems assume `EndAdjacent` or `NoneBetween`.
12. While a bundle of horizontals is being merged the rings are transiently inconsistent (the ring wraps around through segments
    already processed); the loop invariant has to carry this defect. At the end of the bundle it is gone.
13. `close_{west,east}_neighbor_height_after` do not report closeness that is already going on at `y`, and may report a height at
    which the close segment is not yet a neighbour (C59, `C59_in_progress`, `C59_early`). The caller `compute_positions` copes with both.
14. In `process_sweep_line_range` the test `is_in_changed_interval` on the entry to the east of a range is dead code: touching intervals
    have been merged, so that entry is never in a changed interval. (The `Scan` theorems are proved with the test false; if it could be
    true, a stale east neighbour would be recorded in the `scan_after` branch, which lacks the test.)
15. `scan_for_removal` starts its scan from the left neighbour of the place of the removed segment. If that neighbour ends at the
    current height the scan does nothing, and a crossing of segments further to the left and right is never found (C62,
    `C62_missed_crossing`: ten straight segments, the order is wrong by 100 times the tolerance). The order that can be proved is up
    to twice the margin of the comparisons, `3 eps`.
16. `handle_intersection` may delay an event to the end height of one of its segments (`min(y1, y2)`); the delayed event is not
    followed by a new scan, so while it is delayed the order of the two segments has no uniform bound.
17. `compute_horizontal_changed_intervals` relies on `partition_point` being monotone in the predicate also where the predicate is not
    partitioned (C60); otherwise `old_idx` marks could lie outside the changed intervals and `next_range` would panic.
18. `position::compute_positions` uses 0.0 as the default of `last_y` and skips segments whose start is above it, so segments at negative
    heights are skipped in the horizontal-error pass.
19. `Quadratic::signs` is wrong for decreasing linear functions, for multiples of `t²` and for constants (C63). It is public but only
    used by a fuzz target.
20. With NaN coordinates the order on points is not transitive (C41): NaN compares as equal to everything.
21. `Segment::lower` is not a lower bound for horizontal segments: it is computed from the right end (C42). The callers treat horizontal
    segments separately.
22. The error bounds of `EstParab::from_cubic` are computed on the two hybrid quadratics, which is not enough by convexity on the side where
    the parabola is not convex; the documentation gives no argument. They are right for descending curves (C66, by an area argument), and a
    numerical search shows that they are wrong for other curves.

23. `intersect_cubics` documents that a definite answer means more than `tolerance - accuracy` apart and "close" less than `tolerance + accuracy`. Once a
    pair is compared after a rotation by 45 degrees this holds only along the rotated horizontal: in the original frame a definite
    answer only means a strict order (C67), with no lower bound on the distance. Even without a rotation "close" may be justified by points at
    heights that differ by up to the tolerance (C68).
24. In `intersect_cubics_rec` the early exit tests `y1 - y0 < accuracy` and the inner test `y1 - y0 <= accuracy`; so a range exactly `accuracy` high is
    neither compared by bounding boxes nor subdivided, and is reported "close" however wide the error bounds of the estimates are (the exception in C68).
25. `ordered_curves_all_close`, to bring a straight segment down to the height `y0`, draws a line to its *final* endpoint instead of its point at
    height `y0`. If a line comes close to a curve part-way down, its path runs to its end, back up, and down again (`C39_not_descending`).
26. `PositionedOutputSeg` documents that "the unperturbed part can only be a single contiguous interval". A path can be copied, perturbed and copied
    again; then only the last part is recorded (`C71_two_copied`).
27. `horizontal_error_weight` looks at sign changes of consecutive control vectors; if the middle one vanishes a turning point is missed and the
    weight is too small (`C72_turning`).
28. (continuing 18) an output segment that does not reach below the height 0 is only copied, whatever the comparisons say (`C40_above_zero`), and the
    layout is not invariant under translations (`C40_not_invariant`).

29. `can_merge` checks that the piece next to the joint is unperturbed, but returns the parameter at the far end of the whole output segment. If a segment is laid
    out as an unperturbed piece followed by others, the merged element replaces the piece by the part of the curve up to the far end, and the path goes
    astray (`C75_cut_off`: a path that dips below all of the input). It also never checks that the segment on the other side of the joint comes
    from the same input curve; the theorems have this as a hypothesis (`Follows`). If it fails, the `unwrap` in `segs_to_path` is not justified either.
    A horizontal jog at the point where the pieces meet is dropped by merging.
30. `solve_cubic_in_unit_interval` compares `c3` with `c2`, `c1` and `c2` again (`c0` is left out). Dropping a small `c3` can lose roots in the unit interval
(`C92_missed`: a nearly double root), so that "all roots are found" (`FindsRoots`, assumed by C66 and what follows from it) is an idealization. C92 bounds the consequences for the estimates.
31. `y_subsegment` sets the heights of the ends but leaves the control points. If the parameter found is slightly too small where the curve is flat, the part begins
below its first control point and is not descending (`C93_ascends`), although the callers rely on that.
32. `Contour::outer` says that outer contours wind counter-clockwise. If the predicate selects the outside (as `|w| !w.shape_a`), contours without parent are still
    flagged outer although the returned paths wind by −1 around what is not selected (C100): the occupied part stays on the left, the flag and the direction disagree.

## Simplifications in the layout model

- Numbers are real numbers, as in the geometry model; `solve_cubic_in_unit_interval` is a parameter, with the contract `FindsRoots` where needed (an idealization: see C92, which models the function itself).
- Comparisons are a function of two segments: C12 shows that what is in the cache does not matter.
- A `BezPath` is its starting point and the other elements. Vectors indexed by output segments are functions. The binary heap is a list from which
  a greatest entry is taken (entries that compare equal are equal).
- Loops have fuel; the theorems show that enough fuel exists, and that more does not change the result.
- What the layout needs from the other passes is `Input.Ok`: at each height the output segments alive there form a list whose neighbours are those of
  the scan-line maps (C57), records are sorted (C58), comparisons of segments that are neighbours cover their common heights (C67), endpoints
  go down. It is met by the examples in `Pos/Example.lean`.

## Simplifications in the model of paths of contours

- As in the layout model. `BezPath::reverse_subpaths` is modelled for a single sub-path; the final `ClosePath` is not part of the list.
- `can_merge`, `segs_to_path` are functions of the finished topology, the segments and the layout. That the layout runs from one end of each segment
  to the other (`Laid`) is C39; that contours are closed is C28.

## Simplifications in the end-to-end model

`Verif.Full` puts the models together: `Segs` (filled with the real monotone pieces of `Geom`), `Sweep` with the comparisons of `Geom`
(`intersect_cubics`, then `with_y_slop`, then the flip of the cache), `Merge`, `Contours` and `BinOp`. Real numbers throughout. The two caches of comparisons
are functions of the pair (C12: a cached result is that of the first request for the pair; which of the two directions was asked first is a parameter).
`intersect_cubics` has no bound on its depth in the code; `compareNew` takes the result that it has for all sufficiently large bounds, and C67 shows that there is
one whenever the curves share a height. The loops of the sweep and of `contours` run with a bound on the number of steps; exceeding it counts as a panic.
`Full/Model` goes as far as the contours as lists of output segments: `windContours` follows the input segments from which the output segments were cut. `Full/Paths`
draws them: the code computes the layout before it looks for contours and draws each contour as soon as it is complete; the model does it afterwards (the layout does not
depend on the contours, and drawing does not change them). The layout uses a new cache of comparisons; which direction of a pair is computed first in it is the parameter
`again`. C85 covers the drawn paths of polygons; C90 those of curves in general position that are not cut into monotone pieces (and the layout of those that are; C39, C69–C75 treat the paths of curves separately).

The order of the sweep line at its own height (`LineOrder`) and just below (`BetweenOrder`) is a hypothesis for inputs with crossings. It is
proved (`planar_order`) for inputs whose segments do not cross (they may touch, share ends or coincide) when the comparisons tell segments apart that
differ somewhere (`Resolved`).

For inputs with crossings it is proved in general position (`General`, C81). `Told` is what the comparison with tolerance `eps` says at a height, `Blurred` that it says
nothing in either direction. `OneFirst` says that one direction of each pair is computed and the other one is its flip, as the cache does. For polygons
`LoosePolygons` is a condition on the edges alone: `Meet eps t a b` says that within `eps` above or below the height `t` the edges come within `3/2 eps` of each other
horizontally. Edges that do not cross and are clearly apart where they differ (`Quiet`) may meet in any way: any number of them may share a vertex, touch or
coincide. Two edges that are not quiet must be alone where they meet (no third edge meets them there), and at the height of a vertex they may only meet if they have
it in common. Planar inputs are a special case (`general_of_planar`, `Polygons.loose`), and so are inputs where no three edges meet (`general_of_pairs`,
`LoosePolygons.of_pairs`). `Fan.xor_winds` is an example with a vertex of four edges, two edges that coincide and a crossing. The order is only needed at heights
where a segment starts or ends: that is where horizontal segments and contour neighbours are looked up by binary search. What is not
covered: a crossing through which (almost) a third edge passes, and a crossing at (almost) the height of some vertex; there the order of the line is not established
(and for straightforward examples of such inputs the order of the line is not even a total preorder, so that binary search may go wrong).

C79 (`Sweep/Total*.lean`): that nothing panics is proved from contracts (`Env.Comparable`: the comparisons are well formed, definite orders are right) which
`env_comparable` proves for every input. The order of the line when the changed intervals are computed (`Env.Ordered`) remains a hypothesis for inputs with
crossings: `compute_changed_intervals` looks for the ends of horizontal segments and of contours with binary searches and panics if the line is so
much out of order that they do not find them.

## Simplifications in the geometry model

- Numbers are real numbers; `sqrt`, division and comparison are exact, and rounding is not modelled. Infinite roots are `EReal`.
- Elsewhere than in C92, `solve_t_for_y` and `solve_cubic_in_unit_interval` are not modelled as iterations. They are represented by their contract: some
  root in `[0, 1]`, respectively all roots in `[0, 1]`. For the second this is an idealization (finding 30). The contracts are satisfiable (`solveT_spec`, `findsRoots_exists`).
- kurbo's `eval`, `deriv`, `subsegment`, `bounding_box` and `area` are modelled by their formulas (`bounding_box` by exact extrema of the
  coordinate polynomials).

## Simplifications in the sweep model

* `TreeVec` is replaced by `List` (justified by C01–C06); `partition_point` is a parameter `pp`, a function of the predicate and the list,
  with the contract `Env.PP` (C06, C60). So the dependence of its result on the shape of the tree for unpartitioned predicates is
  modelled by an arbitrary but fixed choice per list.
* Rust's stable sort is an insertion sort (`stableSort`).
* Segments, comparisons, bounding boxes and `at_y` are an environment `Env` of arbitrary functions; each theorem states what it needs.
* Loops have an iteration budget; running out is `none`, and theorems about success say which budget suffices or take success as a
  hypothesis.
