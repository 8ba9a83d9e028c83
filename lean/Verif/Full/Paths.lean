import Verif.Full.Model
import Verif.Path.Model

/-!
# The whole pipeline: from the contours to the returned paths

`Full/Model.lean` goes from the paths to the topology and the contours as lists of half-segments. Here the contours are drawn: the scan-line orders
(`Verif.Scan`), the layout of the output segments (`Verif.Pos`) and the path of each contour (`Verif.Path`) are put together.
-/

namespace Verif.Full
open Verif.Curve

variable {W : Type} [AddCommGroup W] [DecidableEq W]

/-- topology.rs:1381-1403 (`Topology::compute_positions`): what is handed to `compute_positions` of position.rs. The comparisons are made with a new cache
(tolerance `eps`, accuracy `eps / 2`, slop the tolerance: order.rs:29-36); `again` says which direction of a pair is compared first in it. -/
noncomputable def layoutInput (cfg : Cfg) (again : Nat → Nat → Bool) (s : Segs.Segments ℝ) (t : Topo.Topo ℝ W) (m : Scan.Maps ℝ) : Pos.Input where
  n := t.n
  seg i := segAt s (t.origSeg i)
  orig := t.origSeg
  first i := Path.pt t ⟨i, true⟩
  second i := Path.pt t ⟨i, false⟩
  cmp := compare cfg.solve cfg.eps (cfg.eps / 2) cfg.eps again (segAt s)
  maps := m
  accuracy := cfg.eps / 4
  solve := cfg.solve

/-- topology.rs:1381-1403 (`Topology::compute_positions`). -/
noncomputable def layout (cfg : Cfg) (again : Nat → Nat → Bool) (s : Segs.Segments ℝ) (t : Topo.Topo ℝ W) (fuel : Nat) : Option (Nat → Pos.OPath) :=
  match Scan.buildScanLineOrders t with
  | none => none
  | some m => Pos.computePositions (layoutInput cfg again s t m) fuel

/-- `kurbo::PathSeg`. -/
def pseg : Segs.PathSeg ℝ → Path.PSeg
  | .line p q => .line (pt p) (pt q)
  | .quad p q r => .quad ⟨pt p, pt q, pt r⟩
  | .cubic p q r u => .cubic ⟨pt p, pt q, pt r, pt u⟩

/-- The part of the arena that `segs_to_path` reads (segments.rs:37-58). (The indices are always in range.) -/
noncomputable def source (s : Segs.Segments ℝ) : Path.Src where
  seg := segAt s
  orient i := (s.orientation[i]?).getD true
  split i := (s.splitFromPredecessor[i]?).getD (0, 1)
  input i := match s.inputSegs[i]? with
    | some g => pseg g
    | none => .line ⟨0, 0⟩ ⟨0, 0⟩

/-- One element of a `BezPath`. -/
def pathEl : Pos.El → Segs.PathEl ℝ
  | .line p => .lineTo (unpt p)
  | .quad a p => .quadTo (unpt a) (unpt p)
  | .curve a b p => .curveTo (unpt a) (unpt b) (unpt p)

/-- topology.rs:935, 985 (`move_to`, `close_path`): the `BezPath` with a given start and given elements. -/
def bezPath (r : Geom.Pt × List Pos.El) : List (Segs.PathEl ℝ) := .moveTo (unpt r.1) :: (r.2.map pathEl ++ [.closePath])

/-- topology.rs:1789-1800 (`Contour`). -/
structure OutContour where
  path : List (Segs.PathEl ℝ)
  parent : Option Nat
  outer : Bool

/-- topology.rs:1262, 1279 (`segs_to_path`), for each contour. -/
noncomputable def drawContours (s : Segs.Segments ℝ) (t : Topo.Topo ℝ W) (pos : Nat → Pos.OPath) : List Contours.Contour → Option (List OutContour)
  | [] => some []
  | c :: cs =>
    match Path.segsToPath t (source s) pos c.path, drawContours s t pos cs with
    | some r, some l => some (⟨bezPath r, c.parent, c.outer⟩ :: l)
    | _, _ => none

/-- The result of a boolean operation: the returned contours; or `NonClosedPath`; or a panic (also: more steps than allowed). -/
inductive Result where
  | ok (contours : List OutContour)
  | err (start stop : Segs.Pt ℝ)
  | panic

/-- topology.rs:1131-1283 (`contours`): what is returned after the contours have been found. (The code computes the layout first and draws each contour as soon
as it is complete.) -/
noncomputable def Outcome.draw (cfg : Cfg) (again : Nat → Nat → Bool) (fuel : Nat) : Outcome → Result
  | .err a b => .err a b
  | .panic => .panic
  | .ok s t cs =>
    match layout cfg again s t fuel with
    | none => .panic
    | some pos =>
      match drawContours s t pos cs with
      | none => .panic
      | some l => .ok l

/-- lib.rs:126-164 (`binary_op_with_eps`). -/
noncomputable def binaryOpPaths (cfg : Cfg) (again : Nat → Nat → Bool) (a b : List (Segs.PathEl ℝ)) (rule : BinOp.FillRule) (op : BinOp.Op) (fuel : Nat) : Result :=
  (binaryOp cfg a b rule op fuel).draw cfg again fuel

/-- topology.rs:1601-1613 (`from_polylines_binary`) followed by `contours`. -/
noncomputable def polylineOpPaths (cfg : Cfg) (again : Nat → Nat → Bool) (as bs : List (List (Segs.Pt ℝ))) (rule : BinOp.FillRule) (op : BinOp.Op) (fuel : Nat) : Result :=
  (polylineOp cfg as bs rule op fuel).draw cfg again fuel

end Verif.Full
