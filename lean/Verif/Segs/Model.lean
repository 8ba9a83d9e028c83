import Mathlib.Order.Defs.LinearOrder

/-!
# Model of the segment arena `src/segments.rs` (and the parts of `src/geom.rs` it uses)

Coordinates are an arbitrary linear order `K` (no NaN).  `zero`/`one` are the parameter values `0.0`
and `1.0`.  The numeric parts are parameters:
* `mono : PathSeg → List (Cubic × K × K)` is `monotonic_pieces(to_cubic(seg))` for curved `seg`
  (geom.rs:174-229, segments.rs:489-500), each piece with its parameter range;
* `atY : Seg → K → K` is `Segment::at_y` (geom.rs:327-345).
-/

namespace Verif.Segs

/-- geom.rs:14-26 (`Point`), with the order of geom.rs:28-46 below. -/
structure Pt (K : Type) where
  x : K
  y : K
deriving DecidableEq

/-- geom.rs:28-39 (`Ord for Point`): by `y`, then by `x`. -/
def Pt.lt {K : Type} [LT K] (p q : Pt K) : Prop := p.y < q.y ∨ (p.y = q.y ∧ p.x < q.x)
def Pt.le {K : Type} [LT K] (p q : Pt K) : Prop := p.lt q ∨ p = q

instance {K : Type} [LinearOrder K] (p q : Pt K) : Decidable (p.lt q) := by
  unfold Pt.lt; infer_instance
instance {K : Type} [LinearOrder K] (p q : Pt K) : Decidable (p.le q) := by
  unfold Pt.le; infer_instance

/-- geom.rs:108-125 (`Segment`, `SegmentInner`). -/
inductive Seg (K : Type) where
  | line (p0 p1 : Pt K)
  | cubic (p0 p1 p2 p3 : Pt K)
deriving DecidableEq

variable {K : Type}

/-- geom.rs:256-260 (`start`). -/
def Seg.start : Seg K → Pt K
  | .line p0 _ => p0
  | .cubic p0 _ _ _ => p0

/-- geom.rs:263-268 (`end`). -/
def Seg.stop : Seg K → Pt K
  | .line _ p1 => p1
  | .cubic _ _ _ p3 => p3

/-- `kurbo::CubicBez` (control points only). -/
structure Cubic (K : Type) where
  p0 : Pt K
  p1 : Pt K
  p2 : Pt K
  p3 : Pt K
deriving DecidableEq

/-- `kurbo::PathSeg`. -/
inductive PathSeg (K : Type) where
  | line (p0 p1 : Pt K)
  | quad (p0 p1 p2 : Pt K)
  | cubic (p0 p1 p2 p3 : Pt K)
deriving DecidableEq

/-- `kurbo::PathEl`. -/
inductive PathEl (K : Type) where
  | moveTo (p : Pt K)
  | lineTo (p : Pt K)
  | quadTo (p1 p : Pt K)
  | curveTo (p1 p2 p : Pt K)
  | closePath
deriving DecidableEq

/-- segments.rs:37-58 (`Segments`): parallel arrays indexed by segment. -/
structure Segments (K : Type) where
  segs : List (Seg K)
  contourPrev : List (Option Nat)
  contourNext : List (Option Nat)
  orientation : List Bool
  splitFromPredecessor : List (K × K)
  inputSegs : List (PathSeg K)
  enter : List (K × Nat)
  exit : List (K × Nat)

/-- `Segments::default()`. -/
def Segments.empty : Segments K := ⟨[], [], [], [], [], [], [], []⟩

/-- segments.rs:177-179 (`len`). -/
def Segments.len (s : Segments K) : Nat := s.segs.length

section
variable [LinearOrder K]

/-- geom.rs:385-395 (`is_horizontal`). -/
def Seg.isHorizontal : Seg K → Bool
  | .line p0 p1 => p0.y = p1.y
  | .cubic _ _ _ _ => false

/-- geom.rs:233-243 (`monotonic_cubic`). -/
def Seg.monotonicCubic (p0 p1 p2 p3 : Pt K) : Seg K :=
  if p3.y = p0.y then .line p0 p3 else .cubic p0 p1 p2 p3
end

/-- segments.rs:199-205 (`oriented_start`); `none` is an out-of-bounds panic. -/
def Segments.orientedStart (s : Segments K) (i : Nat) : Option (Pt K) :=
  match s.orientation[i]?, s.segs[i]? with
  | some o, some g => some (if o then g.start else g.stop)
  | _, _ => none

/-- segments.rs:213-219 (`oriented_end`). -/
def Segments.orientedEnd (s : Segments K) (i : Nat) : Option (Pt K) :=
  match s.orientation[i]?, s.segs[i]? with
  | some o, some g => some (if o then g.stop else g.start)
  | _, _ => none

/-- segments.rs:227-229 (`contour_next`); the outer option is the bounds check. -/
def Segments.next (s : Segments K) (i : Nat) : Option (Option Nat) := s.contourNext[i]?
/-- segments.rs:237-239 (`contour_prev`). -/
def Segments.prev (s : Segments K) (i : Nat) : Option (Option Nat) := s.contourPrev[i]?

/-! ## Adding -/

/-- What is pushed for one segment, except the contour links. -/
structure Item (K : Type) where
  seg : Seg K
  orient : Bool
  split : K × K
  input : PathSeg K

/-- The sequence of pushes repeated at segments.rs:259-267, 343-350, 365-378 and 405-414. Note that the
links are pushed after `segs`, so `self.segs.len()` is already the new length. -/
def Segments.pushItem (s : Segments K) (it : Item K) : Segments K :=
  let segs := s.segs ++ [it.seg]
  { s with
    segs := segs
    orientation := s.orientation ++ [it.orient]
    splitFromPredecessor := s.splitFromPredecessor ++ [it.split]
    inputSegs := s.inputSegs ++ [it.input]
    contourPrev := s.contourPrev ++ [some (segs.length - 2)]
    contourNext := s.contourNext ++ [some segs.length] }

def Segments.pushItems (s : Segments K) (its : List (Item K)) : Segments K :=
  its.foldl Segments.pushItem s

/-- segments.rs:124-126 (`pairs`). -/
def pairs {α : Type} : List α → List (α × α)
  | [] => []
  | [_] => []
  | a :: b :: rest => (a, b) :: pairs (b :: rest)

/-- segments.rs:120-122 (`cyclic_pairs`). -/
def cyclicPairs {α : Type} (xs : List α) : List (α × α) :=
  pairs xs ++ (match xs.getLast?, xs.head? with
    | some l, some f => [(l, f)]
    | _, _ => [])

/-- Replace the last element (`*v.last_mut().unwrap() = x`). -/
def setLast {α : Type} (l : List α) (x : α) : List α := l.set (l.length - 1) x

section
variable [LinearOrder K] (zero one : K)

/-- segments.rs:258 and 404-411: the item pushed for a polyline edge `(p, q)`. -/
def polyItem (e : Pt K × Pt K) : Item K :=
  if e.1.lt e.2 then ⟨.line e.1 e.2, true, (zero, one), .line e.1 e.2⟩
  else ⟨.line e.2 e.1, false, (zero, one), .line e.1 e.2⟩

/-- segments.rs:433-458 (`update_enter_exit`), the x coordinate used as a tie-break (`self.segs[i].at_y`).
The index is always in range (theorem `C16_schedules`), so the default is irrelevant. -/
def xAt (atY : Seg K → K → K) (segs : List (Seg K)) (i : Nat) (y : K) : K :=
  match segs[i]? with
  | some g => atY g y
  | none => y

/-- segments.rs:447-454: the comparator of `enter.sort_by`, as "not greater". -/
def enterLe (atY : Seg K → K → K) (segs : List (Seg K)) (a b : K × Nat) : Bool :=
  decide (a.1 < b.1) || (decide (a.1 = b.1) && decide (xAt atY segs a.2 a.1 ≤ xAt atY segs b.2 a.1))

/-- segments.rs:433-458 (`update_enter_exit`). `sort_by` is a stable merge sort. -/
def Segments.updateEnterExit (atY : Seg K → K → K) (s : Segments K) (oldLen : Nat) : Segments K :=
  let fresh := (s.segs.zipIdx).drop oldLen
  let enter := s.enter ++ fresh.map (fun g => (g.1.start.y, g.2))
  let exit := s.exit ++ (fresh.filter (fun g => !g.1.isHorizontal)).map (fun g => (g.1.stop.y, g.2))
  { s with
    enter := enter.mergeSort (enterLe atY s.segs)
    exit := exit.mergeSort (fun a b => decide (a.1 ≤ b.1)) }

/-- segments.rs:249-278 (`add_points`). -/
def Segments.addPoints (atY : Seg K → K → K) (s : Segments K) (ps : List (Pt K)) : Segments K :=
  let oldLen := s.len
  if ps.length ≤ 1 then s
  else
    let s1 := s.pushItems ((pairs ps).map (polyItem zero one))
    let s2 :=
      if oldLen < s1.len then
        { s1 with contourPrev := s1.contourPrev.set oldLen none
                  contourNext := setLast s1.contourNext none }
      else s1
    s2.updateEnterExit atY oldLen

/-- segments.rs:395-424 (`add_polyline_without_updating_enter_exit`). -/
def Segments.addPolylineRaw (s : Segments K) (ps : List (Pt K)) : Segments K :=
  let oldLen := s.len
  if ps.length ≤ 1 then s
  else
    let s1 := s.pushItems ((cyclicPairs ps).map (polyItem zero one))
    if oldLen < s1.len then
      { s1 with contourPrev := s1.contourPrev.set oldLen (some (s1.len - 1))
                contourNext := setLast s1.contourNext (some oldLen) }
    else s1

/-- segments.rs:283-293 (`add_closed_polylines`). -/
def Segments.addClosedPolylines (atY : Seg K → K → K) (s : Segments K) (pss : List (List (Pt K))) :
    Segments K :=
  (pss.foldl (Segments.addPolylineRaw zero one) s).updateEnterExit atY s.len

/-- segments.rs:296-300 (`add_closed_polyline`). -/
def Segments.addClosedPolyline (atY : Seg K → K → K) (s : Segments K) (ps : List (Pt K)) :
    Segments K :=
  (s.addPolylineRaw zero one ps).updateEnterExit atY s.len

/-! ### Bezier paths -/

/-- `kurbo::segments` run on one element, with the current `(start, last)`; external code, transcribed
from kurbo's documentation: a leading non-`MoveTo` element starts at its own end point and a leading
`ClosePath` panics (`none`). Returns the new state and at most one segment. -/
def kurboStep (st : Option (Pt K × Pt K)) (el : PathEl K) :
    Option ((Pt K × Pt K) × List (PathSeg K)) :=
  let st' : Option (Pt K × Pt K) := match st with
    | some p => some p
    | none => match el with
      | .moveTo p => some (p, p)
      | .lineTo p => some (p, p)
      | .quadTo _ p => some (p, p)
      | .curveTo _ _ p => some (p, p)
      | .closePath => none
  match st' with
  | none => none
  | some (start, last) =>
    match el with
    | .moveTo p => some ((p, p), [])
    | .lineTo p => some ((start, p), [.line last p])
    | .quadTo p1 p => some ((start, p), [.quad last p1 p])
    | .curveTo p1 p2 p => some ((start, p), [.cubic last p1 p2 p])
    | .closePath => if last ≠ start then some ((start, start), [.line last start])
                    else some ((start, last), [])

/-- `kurbo::segments(subpath).collect()`. -/
def kurboSegments : Option (Pt K × Pt K) → List (PathEl K) → Option (List (PathSeg K))
  | _, [] => some []
  | st, el :: els =>
    match kurboStep st el with
    | none => none
    | some (st', out) =>
      match kurboSegments (some st') els with
      | none => none
      | some rest => some (out ++ rest)

/-- segments.rs:128-150 (`SubpathIter`): the elements up to (excluding) the next `MoveTo`, after the
first element has been taken; returns the subpath's remaining elements and the rest. -/
def takeSubpath : List (PathEl K) → List (PathEl K) × List (PathEl K)
  | [] => ([], [])
  | .moveTo p :: rest => ([], .moveTo p :: rest)
  | el :: rest =>
    let r := takeSubpath rest
    (el :: r.1, r.2)

theorem takeSubpath_length {K : Type} (els : List (PathEl K)) : (takeSubpath els).2.length ≤ els.length := by
  induction els with
  | nil => simp [takeSubpath]
  | cons e els ih => cases e <;> simp [takeSubpath] <;> omega

/-- segments.rs:152-172, 328-331 (`Subpaths`): the subpaths of a path. -/
def subpaths : List (PathEl K) → List (List (PathEl K))
  | [] => []
  | el :: els =>
    let r := takeSubpath els
    (el :: r.1) :: subpaths r.2
termination_by els => els.length
decreasing_by
  have := takeSubpath_length els
  simp; omega

/-- segments.rs:334-380: the items pushed for one `PathSeg`. -/
def bezItems (mono : PathSeg K → List (Cubic K × K × K)) (seg : PathSeg K) : List (Item K) :=
  match seg with
  | .line p0 p1 =>
    let (a, b, orient) := if p0.le p1 then (p0, p1, true) else (p1, p0, false)
    if a ≠ b then [⟨.line a b, orient, (zero, one), seg⟩] else []
  | _ =>
    (mono seg).map fun m =>
      let c := m.1
      if c.p0.le c.p3 then
        ⟨Seg.monotonicCubic c.p0 c.p1 c.p2 c.p3, true, m.2, seg⟩
      else
        ⟨Seg.monotonicCubic c.p3 c.p2 c.p1 c.p0, false, m.2, seg⟩

/-- Outcome of adding a path: done, failed with `NonClosedPath { start_point, end_point }` (the arena
as it was left), or panicked. -/
inductive Outcome (K : Type) where
  | ok (s : Segments K)
  | err (start stop : Pt K) (s : Segments K)
  | panic

/-- segments.rs:332-391: one subpath. -/
def Segments.addSubpath (mono : PathSeg K → List (Cubic K × K × K)) (mustBeClosed : Bool)
    (s : Segments K) (sub : List (PathEl K)) : Outcome K :=
  match kurboSegments none sub with
  | none => .panic
  | some psegs =>
    let oldLen := s.len
    let s1 := s.pushItems (psegs.flatMap (bezItems zero one mono))
    if oldLen < s1.len then
      match s1.orientedStart oldLen, s1.orientedEnd (s1.len - 1) with
      | some sp, some ep =>
        if sp = ep then
          .ok { s1 with contourPrev := s1.contourPrev.set oldLen (some (s1.len - 1))
                        contourNext := s1.contourNext.set (s1.len - 1) (some oldLen) }
        else if mustBeClosed then .err sp ep s1
        else .ok s1
      | _, _ => .panic
    else .ok s1

/-- segments.rs:322-393 (`add_path_without_updating_enter_exit`), over the subpaths. -/
def Segments.addSubpaths (mono : PathSeg K → List (Cubic K × K × K)) (mustBeClosed : Bool)
    (s : Segments K) : List (List (PathEl K)) → Outcome K
  | [] => .ok s
  | sub :: subs =>
    match s.addSubpath zero one mono mustBeClosed sub with
    | .ok s' => s'.addSubpaths mono mustBeClosed subs
    | .err a b s' => .err a b s'
    | .panic => .panic

/-- segments.rs:305-310 (`add_bez_path`, `mustBeClosed = true`) and 315-320
(`add_non_closed_bez_path`, `mustBeClosed = false`). -/
def Segments.addPath (mono : PathSeg K → List (Cubic K × K × K)) (atY : Seg K → K → K)
    (mustBeClosed : Bool) (s : Segments K) (p : List (PathEl K)) : Outcome K :=
  match s.addSubpaths zero one mono mustBeClosed (subpaths p) with
  | .ok s' => .ok (s'.updateEnterExit atY s.len)
  | .err a b s' => .err a b s'
  | .panic => .panic

end

/-- segments.rs:475-483 (`check_invariants`), `false` for a failed assertion or out-of-bounds. -/
def Segments.checkInvariants [LinearOrder K] (s : Segments K) : Bool :=
  (List.range s.len).all fun i =>
    match s.segs[i]?, s.next i with
    | some g, some nx =>
      decide (g.start.le g.stop) &&
      (match nx with
        | none => true
        | some j => (s.orientedEnd i == s.orientedStart j) && (s.orientedEnd i != none) &&
            (s.prev j == some (some i)))
    | _, _ => false

end Verif.Segs
