import Verif.Geom.IProps
import Verif.Scan.Close

/-!
# Model of the layout of the output curves (`src/position.rs`)

Coordinates are real numbers, as in `Geom/Model.lean`. `none` is a panic (an `unwrap` of `None`) or running out of fuel; the theorems show
that enough fuel exists. Vectors indexed by output segments are functions on the natural numbers below `n`.
-/

namespace Verif.Pos
open Verif.Curve Verif.Geom Verif.Scan

/-- `kurbo::PathEl`, without `MoveTo` (it is only the first element of a path here) and `ClosePath` (it is not used). -/
inductive El where
  | line (p : Pt)
  | quad (a p : Pt)
  | curve (a b p : Pt)

/-- The end point of an element. -/
def El.stop : El → Pt
  | .line p => p
  | .quad _ p => p
  | .curve _ _ p => p

/-- The element with another end point. -/
def El.setStop (q : Pt) : El → El
  | .line _ => .line q
  | .quad a _ => .quad a q
  | .curve a b _ => .curve a b q

/-- position.rs:233-242 (`PositionedOutputSeg`): a path that consists of a `MoveTo` and other elements, and the index of the unperturbed
part. A `BezPath` with the initial `MoveTo` and `k` further elements has `k` segments. -/
structure OPath where
  start : Pt
  els : List El
  copied : Option Nat

/-- position.rs:204-213 (`bez_end`). -/
def OPath.stop (p : OPath) : Pt :=
  match p.els.getLast? with
  | none => p.start
  | some e => e.stop

/-- Appending an element. -/
def OPath.push (p : OPath) (e : El) : OPath := { p with els := p.els ++ [e] }

/-- The input of `compute_positions` (position.rs:250-257). `seg` and `orig` are the original segment of an output segment and its index
(`segs` and `orig_seg_map`), `first` and `second` are the `endpoints`, `cmp` are the results of `ComparisonCache::compare_segments` (which do
not depend on what is in the cache: C12), `maps` is the `scan_order`, and `solve` is `solve_cubic_in_unit_interval`. -/
structure Input where
  n : Nat
  seg : Nat → Seg
  orig : Nat → Nat
  first : Nat → Pt
  second : Nat → Pt
  cmp : Nat → Nat → CurveOrder ℝ
  maps : Maps ℝ
  accuracy : ℝ
  solve : ℝ → ℝ → ℝ → ℝ → List ℝ

/-- geom.rs:300-302 (`is_line`). -/
def isLine : Seg → Bool
  | .line _ _ => true
  | .cubic _ => false

/-- position.rs:218-226 (`next_subsegment`). -/
noncomputable def nextSub (s : Seg) (out : OPath) (y1 : ℝ) (endpoint : Pt) : Cubic :=
  open Classical in
  let p0 := out.stop
  let c := ySubsegment s.toCubic p0.y y1
  ⟨p0, c.p1, c.p2, if endpoint.y = y1 then endpoint else c.p3⟩

open Classical in
/-- position.rs:122-144 (`horizontal_error_weight`). -/
noncomputable def errorWeight (c : Cubic) : ℝ :=
  let t0 : Pt := ⟨c.p1.x - c.p0.x, c.p1.y - c.p0.y⟩
  let t1 : Pt := ⟨c.p2.x - c.p1.x, c.p2.y - c.p1.y⟩
  let t2 : Pt := ⟨c.p3.x - c.p2.x, c.p3.y - c.p2.y⟩
  let differentSigns (x y : ℝ) : Prop := (0 < x ∧ y < 0) ∨ (x < 0 ∧ 0 < y)
  if differentSigns t0.x t1.x ∨ differentSigns t1.x t2.x then 1
  else [t0, t1, t2].foldl (fun w v =>
    let denom := Real.sqrt (hypot2 v)
    if denom ≠ 0 then max w (|v.y| / denom) else w) 0

/-- position.rs:158-164: the part of a curve between two heights, with the heights measured from the middle. -/
noncomputable def recentred (c : Cubic) (y0 y1 : ℝ) : Cubic :=
  let mid := (y0 + y1) / 2
  let c := ySubsegment c y0 y1
  ⟨⟨c.p0.x, c.p0.y - mid⟩, ⟨c.p1.x, c.p1.y - mid⟩, ⟨c.p2.x, c.p2.y - mid⟩, ⟨c.p3.x, c.p3.y - mid⟩⟩

open Classical in
/-- position.rs:157-178: one pass over the curves; `none` if one of them is neither short nor well approximated. -/
noncomputable def tryAll (solve : ℝ → ℝ → ℝ → ℝ → List ℝ) (acc y0 y1 : ℝ) : List Cubic → Option (List EstParab)
  | [] => some []
  | c :: cs =>
    let cubic := recentred c y0 y1
    let approx := fromCubic solve cubic
    let factor := errorWeight cubic
    if y1 ≤ y0 + acc ∨ max approx.dmax (-approx.dmin) * factor < acc then
      (tryAll solve acc y0 y1 cs).map (approx :: ·)
    else none

/-- position.rs:147-184 (`approximate`): the final height and the parabolas. -/
noncomputable def approximate (solve : ℝ → ℝ → ℝ → ℝ → List ℝ) (acc : ℝ) (cs : List Cubic) (y0 : ℝ) : ℕ → ℝ → Option (ℝ × List EstParab)
  | 0, _ => none
  | n + 1, y1 =>
    match tryAll solve acc y0 y1 cs with
    | some l => some (y1, l)
    | none => approximate solve acc cs y0 n ((y0 + y1) / 2)

/-- position.rs:96-115: one quadratic for each of the curves; the horizontal coordinates are running maxima (`none` is minus infinity). -/
noncomputable def pushQuads (y0 y1 : ℝ) : Option (ℝ × ℝ) → List (EstParab × Nat) → (Nat → OPath) → (Nat → OPath)
  | _, [], out => out
  | m, (q, o) :: l, out =>
    let mid := (y0 + y1) / 2
    let xMid := q.c0 + (y0 - mid) * (y1 - mid) * q.c2
    let x1 := q.c0 + q.c1 * (y1 - mid) + q.c2 * (y1 - mid) * (y1 - mid)
    let m' : ℝ × ℝ := match m with
      | none => (xMid, x1)
      | some m => (max m.1 xMid, max m.2 x1)
    pushQuads y0 y1 (some m') l (Function.update out o ((out o).push (.quad ⟨m'.1, mid⟩ ⟨m'.2, y1⟩)))

open Classical in
/-- position.rs:90-119: the loop over the heights. The fuel bounds the number of passes of this loop and of the loop of `approximate`. -/
noncomputable def quadLoop (I : Input) (os : List Nat) (y1 : ℝ) : ℕ → ℝ → (Nat → OPath) → Option (Nat → OPath)
  | 0, _, _ => none
  | n + 1, y0, out =>
    if y0 < y1 then
      match approximate I.solve I.accuracy (os.map fun o => (I.seg o).toCubic) y0 n y1 with
      | none => none
      | some (y, qs) => quadLoop I os y1 n y (pushQuads y0 y none (qs.zip os) out)
    else some out

open Classical in
/-- position.rs:71-86: what ends above `y0` is copied from the input. -/
noncomputable def ensureOne (I : Input) (y0 : ℝ) (o : Nat) (p : OPath) : OPath :=
  if p.stop.y < y0 then
    let p' : OPath := { p with copied := some p.els.length }
    if isLine (I.seg o) then p'.push (.line (I.second o))
    else
      let c := nextSub (I.seg o) p y0 (I.second o)
      p'.push (.curve c.p1 c.p2 c.p3)
  else p

/-- position.rs:73-86. -/
noncomputable def ensure (I : Input) (y0 : ℝ) : List Nat → (Nat → OPath) → (Nat → OPath)
  | [], out => out
  | o :: os, out => ensure I y0 os (Function.update out o (ensureOne I y0 o (out o)))

open Classical in
/-- position.rs:43-69: two curves that meet at one end only and separate quickly can be left alone. -/
noncomputable def separates (I : Input) (y0 y1 : ℝ) (os : List Nat) (out : Nat → OPath) : Bool :=
  match os with
  | [o0, o1] =>
    let c0 := nextSub (I.seg o0) (out o0) y1 (I.second o0)
    let c1 := nextSub (I.seg o1) (out o1) y1 (I.second o1)
    (decide ((out o0).stop.y = y0 ∧ (out o1).stop.y = y0) && transversalAfter c0 c1 y1) ||
    (decide ((I.second o0).y = y1 ∧ (I.second o1).y = y1) && transversalBefore c0 c1 y0)
  | _ => false

/-- position.rs:27-120 (`ordered_curves_all_close`); the original segments are looked up from the output segments. -/
noncomputable def allClose (I : Input) (fuel : ℕ) (os : List Nat) (y0 y1 : ℝ) (out : Nat → OPath) : Option (Nat → OPath) :=
  if os.all fun o => isLine (I.seg o) then some out
  else if separates I y0 y1 os out then some out
  else quadLoop I os y1 fuel y0 (ensure I y0 os out)

open Classical in
/-- position.rs:292, 313: the comparison just after a height. -/
noncomputable def pieceAfter (c : CurveOrder ℝ) (y0 : ℝ) : Option (Piece ℝ) := c.iter.find? fun p => decide (y0 < p.hi)

/-- position.rs:289-308: the scan to the west. The fuel is the number of output segments: a longer scan would visit a segment twice and go on
for ever. The last component is the list `west_scan`. -/
noncomputable def westScan (I : Input) (y0 : ℝ) : ℕ → Nat → ℝ → List Nat → Option (ℝ × List Nat)
  | 0, _, _, _ => none
  | k + 1, cur, y1, scan =>
    match neighborAfter (I.maps.west cur) y0 with
    | none => some (y1, scan)
    | some nbr =>
      match pieceAfter (I.cmp (I.orig nbr) (I.orig cur)) y0 with
      | none => none
      | some p =>
        if p.order = .left then
          match closeAfter (I.maps.west cur) (fun o => I.cmp (I.orig cur) (I.orig o)) y0 with
          | none => some (y1, scan)
          | some h => some (min y1 (max h p.hi), scan)
        else westScan I y0 k nbr (min (min y1 p.hi) (I.second nbr).y) (scan ++ [nbr])

/-- position.rs:310-329: the scan to the east. -/
noncomputable def eastScan (I : Input) (y0 : ℝ) : ℕ → Nat → ℝ → List Nat → Option (ℝ × List Nat)
  | 0, _, _, _ => none
  | k + 1, cur, y1, scan =>
    match neighborAfter (I.maps.east cur) y0 with
    | none => some (y1, scan)
    | some nbr =>
      match pieceAfter (I.cmp (I.orig cur) (I.orig nbr)) y0 with
      | none => none
      | some p =>
        if p.order = .left then
          match closeAfter (I.maps.east cur) (fun o => I.cmp (I.orig cur) (I.orig o)) y0 with
          | none => some (y1, scan)
          | some h => some (min y1 (max h p.hi), scan)
        else eastScan I y0 k nbr (min (min y1 p.hi) (I.second nbr).y) (scan ++ [nbr])

/-- The variables of `compute_positions` (position.rs:258-264). -/
structure PState where
  out : Nat → OPath
  lastY : Nat → ℝ
  queue : List (ℝ × Nat)

open Classical in
/-- position.rs:192-196 (`HeapEntry::cmp`): the greater entry is the one with the smaller height, or the greater index. -/
noncomputable def greater (a b : ℝ × Nat) : Bool := decide (a.1 < b.1 ∨ (a.1 = b.1 ∧ b.2 ≤ a.2))

/-- The greatest entry. -/
noncomputable def greatest : ℝ × Nat → List (ℝ × Nat) → ℝ × Nat
  | e, [] => e
  | e, f :: l => greatest (if greater e f then e else f) l

open Classical in
/-- `BinaryHeap::pop`: one of the greatest entries. -/
noncomputable def popMax : List (ℝ × Nat) → Option ((ℝ × Nat) × List (ℝ × Nat))
  | [] => none
  | e :: l => some (greatest e l, (e :: l).erase (greatest e l))

open Classical in
/-- position.rs:265-277: the initial paths. -/
noncomputable def initPath (I : Input) (i : Nat) : OPath :=
  if (I.first i).y = (I.second i).y then ⟨I.first i, [.line (I.second i)], some 0⟩ else ⟨I.first i, [], none⟩

open Classical in
/-- position.rs:258-277: the initial state; heights default to zero. -/
noncomputable def initState (I : Input) : PState :=
  ⟨initPath I, fun _ => 0, ((List.range I.n).filter fun i => decide ((I.first i).y ≠ (I.second i).y)).map fun i => ((I.first i).y, i)⟩

open Classical in
/-- position.rs:331-355: what happens to the group `nbrs` of output segments from `y0` to `y1`. -/
noncomputable def place (I : Input) (fuel : ℕ) (idx : Nat) (y0 y1 : ℝ) (nbrs : List Nat) (s : PState) : Option PState :=
  let out? := if nbrs.length = 1 then
      some (if y0 = y1 then Function.update s.out idx { (s.out idx).push (.line (I.second idx)) with copied := some (s.out idx).els.length } else s.out)
    else allClose I fuel nbrs y0 y1 s.out
  out?.map fun out =>
    ⟨out, fun i => if i ∈ nbrs then y1 else s.lastY i,
      s.queue ++ (nbrs.filter fun i => decide (y1 < (I.second i).y)).map fun i => (y1, i)⟩

open Classical in
/-- position.rs:280-355: the treatment of one entry of the queue. -/
noncomputable def handle (I : Input) (fuel : ℕ) (e : ℝ × Nat) (s : PState) : Option PState :=
  if e.1 < s.lastY e.2 then some s
  else
    match westScan I e.1 I.n e.2 (I.second e.2).y [e.2] with
    | none => none
    | some (y1, west) =>
      match eastScan I e.1 I.n e.2 y1 [] with
      | none => none
      | some (y1, east) => place I fuel e.2 e.1 y1 (west.reverse ++ east) s

/-- position.rs:279-356: the main loop. -/
noncomputable def mainLoop (I : Input) : ℕ → PState → Option PState
  | 0, _ => none
  | n + 1, s =>
    match popMax s.queue with
    | none => some s
    | some (e, q) =>
      match handle I n e { s with queue := q } with
      | none => none
      | some s => mainLoop I n s

open Classical in
/-- position.rs:358-389: the last part of a path. -/
noncomputable def finish (I : Input) (o : Nat) (p : OPath) : OPath :=
  if p.stop.y < (I.second o).y then
    let p' : OPath := { p with copied := some p.els.length }
    if isLine (I.seg o) then p'.push (.line (I.second o))
    else
      let c := nextSub (I.seg o) p (I.second o).y (I.second o)
      p'.push (.curve c.p1 c.p2 c.p3)
  else
    match p.els.getLast? with
    | none => { p with start := I.second o }
    | some e => { p with els := p.els.dropLast ++ [e.setStop (I.second o)] }

/-- position.rs:250-391 (`compute_positions`). -/
noncomputable def computePositions (I : Input) (fuel : ℕ) : Option (Nat → OPath) :=
  (mainLoop I fuel (initState I)).map fun s o => finish I o (s.out o)

end Verif.Pos
