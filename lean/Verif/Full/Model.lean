import Verif.Segs.Model
import Verif.Geom.IModel
import Verif.Geom.Pieces
import Verif.Sweep.Model
import Verif.Merge.Model
import Verif.BinOp.Group
import Verif.Contours.Model

/-!
# The whole pipeline: from paths to the topology

The parts that were modelled separately are put together here: the arena of segments (`Verif.Segs`) is filled with real curves cut into
monotone pieces (`Verif.Geom`), and the sweep (`Verif.Sweep`) is run on it with the comparisons of `intersect_cubics` (`Verif.Geom`). Real numbers
instead of doubles.
-/

namespace Verif.Full
open Verif.Curve

/-! ## Translating between the parts -/

def pt (p : Segs.Pt ℝ) : Geom.Pt := ⟨p.x, p.y⟩
def unpt (p : Geom.Pt) : Segs.Pt ℝ := ⟨p.x, p.y⟩

def cubic (c : Segs.Cubic ℝ) : Geom.Cubic := ⟨pt c.p0, pt c.p1, pt c.p2, pt c.p3⟩
def uncubic (c : Geom.Cubic) : Segs.Cubic ℝ := ⟨unpt c.p0, unpt c.p1, unpt c.p2, unpt c.p3⟩

def seg : Segs.Seg ℝ → Geom.Seg
  | .line p q => .line (pt p) (pt q)
  | .cubic p0 p1 p2 p3 => .cubic ⟨pt p0, pt p1, pt p2, pt p3⟩

/-- segments.rs:489-500 (`to_cubic`), with `kurbo::QuadBez::raise` for quadratics. -/
noncomputable def toCubic : Segs.PathSeg ℝ → Geom.Cubic
  | .line p0 p1 => ⟨pt p0, ⟨p0.x + (p1.x - p0.x) * (1 / 3), p0.y + (p1.y - p0.y) * (1 / 3)⟩,
      ⟨p0.x + (p1.x - p0.x) * (2 / 3), p0.y + (p1.y - p0.y) * (2 / 3)⟩, pt p1⟩
  | .quad p0 p1 p2 => ⟨pt p0, ⟨p0.x + (2 / 3) * (p1.x - p0.x), p0.y + (2 / 3) * (p1.y - p0.y)⟩,
      ⟨p2.x + (2 / 3) * (p1.x - p2.x), p2.y + (2 / 3) * (p1.y - p2.y)⟩, pt p2⟩
  | .cubic p0 p1 p2 p3 => ⟨pt p0, pt p1, pt p2, pt p3⟩

/-- segments.rs:353-354: `monotonic_pieces(to_cubic(seg))`, each piece with its range of parameters. -/
noncomputable def mono (g : Segs.PathSeg ℝ) : List (Segs.Cubic ℝ × ℝ × ℝ) :=
  (Geom.monotonicPieces (toCubic g)).map fun m => (uncubic m.piece, m.startT, m.endT)

/-- geom.rs:327-345 (`Segment::at_y`). -/
noncomputable def atY (g : Segs.Seg ℝ) (y : ℝ) : ℝ := (seg g).atY y

/-! ## Filling the arena -/

/-- `Vec::resize`. -/
def resize {T : Type} (l : List T) (n : Nat) (t : T) : List T := l.take n ++ List.replicate (n - l.length) t

/-- The result of `from_paths` before the sweep: the arena and the tags, or `NonClosedPath`, or a panic of `kurbo::segments`. -/
inductive Built (T : Type) where
  | ok (s : Segs.Segments ℝ) (tags : List T)
  | err (start stop : Segs.Pt ℝ)
  | panic

/-- topology.rs:481-484: the loop of `from_paths`. -/
noncomputable def addPaths {T : Type} : Segs.Segments ℝ → List T → List (List (Segs.PathEl ℝ) × T) → Built T
  | s, tags, [] => .ok s tags
  | s, tags, (p, t) :: ps =>
    match s.addSubpaths 0 1 mono true (Segs.subpaths p) with
    | .err a b _ => .err a b
    | .panic => .panic
    | .ok s' => addPaths s' (resize tags s'.len t) ps

/-- topology.rs:475-487 (`from_paths`, up to the call of `from_segments`); `check_invariants` is C14. -/
noncomputable def buildPaths {T : Type} (ps : List (List (Segs.PathEl ℝ) × T)) : Built T :=
  match addPaths Segs.Segments.empty [] ps with
  | .ok s tags => .ok (s.updateEnterExit atY 0) tags
  | .err a b => .err a b
  | .panic => .panic

/-- topology.rs:1601-1613 (`from_polylines_binary`, up to the call of `from_segments`). -/
noncomputable def buildPolylines (as bs : List (List (Segs.Pt ℝ))) : Segs.Segments ℝ × List Bool :=
  let s1 := Segs.Segments.addClosedPolylines 0 1 atY Segs.Segments.empty as
  let tags := resize [] s1.len true
  let s2 := s1.addClosedPolylines 0 1 atY bs
  (s2, resize tags s2.len false)

/-! ## The sweep on the arena -/

/-- The parameters of a run: the tolerance, the root finder (`solve_cubic_in_unit_interval`), which direction of a pair is compared first in the two caches of the
sweep (order.rs:57-72: the other direction is the flip of it), and the binary search of the tree. `negInf` and `posInf` are the infinities with
which the bounds of positions start. -/
structure Cfg where
  eps : ℝ
  solve : ℝ → ℝ → ℝ → ℝ → List ℝ
  first : Nat → Nat → Bool
  firstCons : Nat → Nat → Bool
  pp : (Nat → Bool) → List Nat → Nat
  negInf : ℝ
  posInf : ℝ

/-- The result of `intersect_cubics`, if it ends: the model has a bound on the depth of the recursion, the code has not. -/
def Ends (solve : ℝ → ℝ → ℝ → ℝ → List ℝ) (tol acc : ℝ) (c0 c1 : Geom.Cubic) (out : CurveOrder ℝ) : Prop :=
  ∃ N, ∀ n ≥ N, Geom.intersectCubics solve tol acc n c0 c1 = some out

open Classical in
/-- order.rs:62-68: a comparison that is not in the cache, `intersect_cubics(..).with_y_slop(..)`. If `intersect_cubics` does not end
or panics the result is empty. (C67 shows that this does not happen for curves that have a height in common.) -/
noncomputable def compareNew (solve : ℝ → ℝ → ℝ → ℝ → List ℝ) (tol acc slop : ℝ) (a b : Geom.Seg) : CurveOrder ℝ :=
  if h : ∃ out, Ends solve tol acc a.toCubic b.toCubic out then
    ((Classical.choose h).withYSlop (decide (slop = 0)) (· - slop) (· + slop)).getD (CurveOrder.new 0)
  else CurveOrder.new 0

/-- order.rs:57-72 (`compare_segments`), as a function of the pair (C12): the flip of the other direction if that was asked first. -/
noncomputable def compare (solve : ℝ → ℝ → ℝ → ℝ → List ℝ) (tol acc slop : ℝ) (first : Nat → Nat → Bool) (segs : Nat → Geom.Seg) (i j : Nat) :
    CurveOrder ℝ :=
  if first i j then compareNew solve tol acc slop (segs i) (segs j) else (compareNew solve tol acc slop (segs j) (segs i)).flip

/-- The segment with a given index. (The index is always in range.) -/
def segAt (s : Segs.Segments ℝ) (i : Nat) : Geom.Seg :=
  match s.segs[i]? with
  | some g => seg g
  | none => .line ⟨0, 0⟩ ⟨0, 0⟩

open Classical in
/-- What the sweep reads (`Sweeper::new`, sweep_line.rs:313-332). The comparisons: sweep_line.rs:326-327 (tolerance `eps` and `4 eps`, accuracy `eps / 2`,
slop the tolerance, order.rs:29-36). The bounds: sweep_line.rs:117-125. The crude comparisons: 442, 496. The thickened positions: 879, 887, 957, 970. -/
noncomputable def env (cfg : Cfg) (s : Segs.Segments ℝ) : Sweep.Env ℝ where
  entrances := s.enter
  exits := s.exit
  startX i := (segAt s i).start.x
  startY i := (segAt s i).start.y
  endX i := (segAt s i).stop.x
  endY i := (segAt s i).stop.y
  orient i := (s.orientation[i]?).getD true
  contourPrev i := (s.contourPrev[i]?).join
  contourNext i := (s.contourNext[i]?).join
  atY i y := (segAt s i).atY y
  lower i y := (segAt s i).lower y cfg.eps
  upper i y := (segAt s i).upper y cfg.eps
  lower2 i y := (segAt s i).lower y cfg.eps - cfg.eps
  upper2 i y := (segAt s i).upper y cfg.eps + cfg.eps
  lowerBound i := (segAt s i).minX - cfg.eps
  upperBound i := (segAt s i).maxX + cfg.eps
  farRight a b := decide ((segAt s a).maxX + 2 * cfg.eps < (segAt s b).minX)
  farLeft a b := decide ((segAt s b).maxX < (segAt s a).minX - 2 * cfg.eps)
  cmp := compare cfg.solve cfg.eps (cfg.eps / 2) cfg.eps cfg.first (segAt s)
  cons := compare cfg.solve (4 * cfg.eps) (cfg.eps / 2) (4 * cfg.eps) cfg.firstCons (segAt s)
  mid a b := (a + b) / 2
  pp := cfg.pp
  negInf := cfg.negInf
  posInf := cfg.posInf

/-- The distance of two points. -/
noncomputable def dist (p q : Geom.Pt) : ℝ := Real.sqrt ((p.x - q.x) ^ 2 + (p.y - q.y) ^ 2)

open Classical in
/-- topology.rs:855-866: are the parts of two segments between two heights coincident? -/
noncomputable def close (eps : ℝ) (s : Segs.Segments ℝ) (a b : Nat) (y0 y1 : ℝ) : Bool :=
  let s1 := Geom.ySubsegment (segAt s a).toCubic y0 y1
  let s2 := Geom.ySubsegment (segAt s b).toCubic y0 y1
  !(decide (eps < dist s1.p0 s2.p0) || decide (eps < dist s1.p1 s2.p1) || decide (eps < dist s1.p2 s2.p2) || decide (eps < dist s1.p3 s2.p3))

variable {T W : Type} [AddCommGroup W] [DecidableEq W]

/-- The contribution of segment `i` (topology.rs:29-36, `W::single(tag, positive)`). -/
def contribution (single : T → Bool → W) (tags : List T) (i : Nat) (b : Bool) : W :=
  match tags[i]? with
  | some t => single t b
  | none => 0

/-- topology.rs:490-531 (`from_segments` up to `merge_coincident`), run with bounds on the numbers of steps. -/
noncomputable def sweep (cfg : Cfg) (single : T → Bool → W) (s : Segs.Segments ℝ) (tags : List T) (fuel2 fuel : Nat) : Option (Topo.Topo ℝ W) :=
  Sweep.fromSegments (env cfg s) (contribution single tags) fuel2 fuel

/-- topology.rs:490-537 (`from_segments`). -/
noncomputable def fromSegments (cfg : Cfg) (single : T → Bool → W) (s : Segs.Segments ℝ) (tags : List T) (fuel2 fuel : Nat) : Option (Topo.Topo ℝ W) :=
  match sweep cfg single s tags fuel2 fuel with
  | none => none
  | some t => Merge.mergeCoincident (close cfg.eps s) t

/-! ## Boolean operations -/

/-- The result of a boolean operation: the segments, the topology and the contours; or `NonClosedPath`; or a panic (also: more steps than allowed). -/
inductive Outcome where
  | ok (s : Segs.Segments ℝ) (t : Topo.Topo ℝ BinOp.BinaryWinding) (cs : List Contours.Contour)
  | err (start stop : Segs.Pt ℝ)
  | panic

/-- topology.rs:1618-1630 (`from_paths_binary`, the arguments of `from_paths`). -/
def tagged (a b : List (Segs.PathEl ℝ)) : List (List (Segs.PathEl ℝ) × Bool) := [(a, true), (b, false)]

/-- From the arena to the contours: lib.rs:151-163 after `from_segments`. The numbers bound the steps of the loops. -/
noncomputable def finish (cfg : Cfg) (rule : BinOp.FillRule) (op : BinOp.Op) (s : Segs.Segments ℝ) (tags : List Bool) (fuel : Nat) : Outcome :=
  match fromSegments cfg BinOp.BinaryWinding.single s tags fuel fuel with
  | none => .panic
  | some t =>
    match Contours.contours t (BinOp.inside rule op) fuel with
    | none => .panic
    | some cs => .ok s t cs

/-- lib.rs:126-164 (`binary_op_with_eps`). -/
noncomputable def binaryOp (cfg : Cfg) (a b : List (Segs.PathEl ℝ)) (rule : BinOp.FillRule) (op : BinOp.Op) (fuel : Nat) : Outcome :=
  match buildPaths (tagged a b) with
  | .err p q => .err p q
  | .panic => .panic
  | .ok s tags => finish cfg rule op s tags fuel

/-- topology.rs:1601-1613 (`from_polylines_binary`) followed by `contours`. -/
noncomputable def polylineOp (cfg : Cfg) (as bs : List (List (Segs.Pt ℝ))) (rule : BinOp.FillRule) (op : BinOp.Op) (fuel : Nat) : Outcome :=
  finish cfg rule op (buildPolylines as bs).1 (buildPolylines as bs).2 fuel

end Verif.Full
