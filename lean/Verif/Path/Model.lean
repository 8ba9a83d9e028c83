import Verif.Pos.Trace
import Verif.Contours.Spec

/-!
# Model of the paths of contours (`segs_to_path`, `can_merge`, `input_seg_t` in `src/topology.rs`)

Coordinates are real numbers. The parts of `kurbo` used here (`PathSeg::{reverse, subsegment, as_path_el}`, `BezPath::reverse_subpaths`) are modelled
by their formulas.
-/

namespace Verif.Path
open Verif.Geom Verif.Topo Verif.Pos

/-- `kurbo::PathSeg`. -/
inductive PSeg where
  | line (p0 p1 : Pt)
  | quad (q : Quad)
  | cubic (c : Cubic)

/-- `kurbo::PathSeg::eval`. -/
def PSeg.eval : PSeg → ℝ → Pt
  | .line p0 p1, t => p0.affine p1 t
  | .quad q, t => q.eval t
  | .cubic c, t => c.eval t

/-- `kurbo::PathSeg::reverse`. -/
def PSeg.reverse : PSeg → PSeg
  | .line p0 p1 => .line p1 p0
  | .quad q => .quad ⟨q.p2, q.p1, q.p0⟩
  | .cubic c => .cubic ⟨c.p3, c.p2, c.p1, c.p0⟩

/-- `kurbo::PathSeg::subsegment`: of a quadratic, the control point is at the end of the (shortened) tangent at the beginning. -/
noncomputable def PSeg.subsegment : PSeg → ℝ → ℝ → PSeg
  | .line p0 p1, t0, t1 => .line (p0.affine p1 t0) (p0.affine p1 t1)
  | .quad q, t0, t1 =>
    let a := q.eval t0
    let d : Pt := Pt.affine ⟨q.p1.x - q.p0.x, q.p1.y - q.p0.y⟩ ⟨q.p2.x - q.p1.x, q.p2.y - q.p1.y⟩ t0
    .quad ⟨a, ⟨a.x + (t1 - t0) * d.x, a.y + (t1 - t0) * d.y⟩, q.eval t1⟩
  | .cubic c, t0, t1 => .cubic (c.subsegment t0 t1)

/-- `kurbo::PathSeg::as_path_el`. -/
def PSeg.el : PSeg → El
  | .line _ p1 => .line p1
  | .quad q => .quad q.p1 q.p2
  | .cubic c => .curve c.p1 c.p2 c.p3

/-- The part of `Segments` (segments.rs:37-58) used here: the segments, their orientations, their parameter ranges in the input (`split_from_predecessor`)
and the input curves (`input_segs`). -/
structure Src where
  seg : Nat → Seg
  orient : Nat → Bool
  split : Nat → ℝ × ℝ
  input : Nat → PSeg

/-- segments.rs:199-205 (`oriented_start`). -/
def Src.orientedStart (S : Src) (i : Nat) : Pt := if S.orient i then (S.seg i).start else (S.seg i).stop
/-- segments.rs:213-219 (`oriented_end`). -/
def Src.orientedEnd (S : Src) (i : Nat) : Pt := if S.orient i then (S.seg i).stop else (S.seg i).start

variable {W : Type}

/-- topology.rs:909-911 (`point`). The index exists (C61), so the default does not matter. -/
def pt (t : Topo ℝ W) (h : Half) : Pt :=
  match (t.pointIdx h).bind fun p => t.points[p]? with
  | some q => ⟨q.1, q.2⟩
  | none => ⟨0, 0⟩

/-- topology.rs:990-992 (`is_simple_point`). -/
def isSimple (t : Topo ℝ W) (h : Half) : Bool := decide ((t.nb h).cw = (t.nb h).ccw)

/-- topology.rs:1114-1123 (`input_seg_t`), for an input segment. -/
noncomputable def inputT (S : Src) (o : Nat) (t : ℝ) : ℝ :=
  let s := S.split o
  max 0 (min 1 (if S.orient o then s.1 + t * (s.2 - s.1) else s.2 - t * (s.2 - s.1)))

open Classical in
/-- topology.rs:1052-1112 (`can_merge`). The paths have at least one element besides the `MoveTo` (C39), so the subtraction does not underflow. -/
noncomputable def canMerge (t : Topo ℝ W) (S : Src) (pos : Nat → OPath) (h : Half) : Option ℝ :=
  let p := pos h.idx
  let o := t.origSeg h.idx
  if (S.seg o).Horizontal then none
  else
    let copied : Bool := if h.first then p.copied == some 0 else p.copied == some (p.els.length - 1)
    let hasOrig : Bool := h.first == S.orient o
    let startY := (pt t h).y
    let endY := (pt t h.other).y
    let merge : Option ℝ :=
      if hasOrig then
        if 0 < (S.split o).1 ∧ copied ∧ startY = (S.orientedStart o).y then some (inputT S o (solveT (S.seg o).toCubic endY)) else none
      else
        if (S.split o).2 < 1 ∧ copied ∧ startY = (S.orientedEnd o).y then some (inputT S o (solveT (S.seg o).toCubic endY)) else none
    if isSimple t h then merge else none

/-- An element, walked the other way; `p` is where it begins. -/
def El.rev (p : Pt) : El → El
  | .line _ => .line p
  | .quad a _ => .quad a p
  | .curve a b _ => .curve b a p

/-- `kurbo::BezPath::reverse_subpaths`, of a path that begins at `p`, without the `MoveTo`. -/
def revEls : Pt → List El → List El
  | _, [] => []
  | p, e :: es => revEls e.stop es ++ [El.rev p e]

/-- topology.rs:938-950: the path of a segment in the direction of the walk (the half is the one at which the segment is left). -/
def oriented (pos : Nat → OPath) (s : Half) : List El :=
  if s.first then revEls (pos s.idx).start (pos s.idx).els else (pos s.idx).els

open Classical in
/-- topology.rs:955-962: the part of the input curve that replaces the merged pieces. -/
noncomputable def subInput (input : PSeg) (unfinished ourT : ℝ) : PSeg :=
  if unfinished < ourT then input.subsegment unfinished ourT else input.reverse.subsegment (1 - unfinished) (1 - ourT)

open Classical in
/-- topology.rs:937-984: the loop over the segments. The elements already drawn are `ret`; when something is merged there is one to replace. -/
noncomputable def pathLoop (t : Topo ℝ W) (S : Src) (pos : Nat → OPath) : List Half → Option ℝ → List El → List El
  | [], _, ret => ret
  | s :: l, unfinished, ret =>
    match canMerge t S pos s.other, unfinished with
    | some ourT, some unfinishedT =>
      pathLoop t S pos l (if canMerge t S pos s = none then none else unfinished)
        (ret.dropLast ++ [(subInput (S.input (t.origSeg s.idx)) unfinishedT ourT).el] ++ (oriented pos s).tail)
    | _, _ => pathLoop t S pos l (canMerge t S pos s) (ret ++ oriented pos s)

open Classical in
/-- topology.rs:920-987 (`segs_to_path`): the starting point and the other elements, except the final `ClosePath`; `none` is the panic of the `unwrap`. -/
noncomputable def segsToPath (t : Topo ℝ W) (S : Src) (pos : Nat → OPath) (segs : List Half) : Option (Pt × List El) :=
  match segs.findIdx? fun s => decide (canMerge t S pos s.other = none) with
  | none => none
  | some k => match segs[k]? with
    | none => none
    | some s => some (pt t s.other, pathLoop t S pos (segs.drop k ++ segs.take k) none [])

end Verif.Path
