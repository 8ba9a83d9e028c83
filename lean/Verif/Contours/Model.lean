import Verif.Topo.Model

/-!
# Model of `Topology::contours` and `Contours::grouped` (`src/topology.rs`)

Simplifications, used throughout:
* The path of a contour is the list of half-segments that `contours` passes to `segs_to_path` (each one is the end,
  in walking direction, of its segment); the conversion to Bézier curves (`segs_to_path`, `compute_positions`) is
  not part of this model.
* Loops without an obvious bound take a budget `fuel` of iterations. Running out of budget, panicking (including
  failing `debug_assert!`s) and indexing out of bounds are all `none`; the theorems show that none of them happens
  as soon as `fuel > 2n`, `n` the number of output segments.
-/

namespace Verif.Contours
open Verif.Topo

variable {K : Type} {W : Type}

/-- topology.rs:1789-1869 (`Contour`). -/
structure Contour where
  path : List Half
  parent : Option Nat
  outer : Bool

/-- topology.rs:1871-1879 (`Contour::default`). -/
def Contour.default : Contour := ⟨[], none, true⟩

/-- topology.rs:1151-1164: the local variables `ret.contours`, `seg_contour`, `visited`, `last_visit`. -/
structure CState where
  contours : List Contour
  segContour : Nat → Option Nat
  visited : Nat → Bool
  lastVisit : Nat → Option Nat

/-- topology.rs:1155-1157 (`bdy`). -/
def bdy (t : Topo K W) (inside : W → Bool) (i : Nat) : Bool := inside (t.winding i).cw != inside (t.winding i).ccw

/-- topology.rs:1178-1184: scanning left, skipping segments that are deleted or not on the boundary. -/
def scanBdy (t : Topo K W) (inside : W → Bool) : Nat → Option Nat → Option (Option Nat)
  | 0, _ => none
  | _ + 1, none => some none
  | f + 1, some left =>
    if t.deleted left || !bdy t inside left then scanBdy t inside f (t.scanWest left) else some (some left)

/-- topology.rs:1176-1204: the parent and orientation of the contour that starts at `idx`. -/
def newContour (t : Topo K W) (inside : W → Bool) (fuel : Nat) (st : CState) (idx : Nat) : Option Contour :=
  match scanBdy t inside fuel (t.scanWest idx) with
  | none => none
  | some none => some Contour.default
  | some (some west) =>
    match st.segContour west with
    | none => none
    | some wc =>
      match st.contours[wc]? with
      | none => none
      | some C =>
        let outside := !inside (t.windingCcw ⟨west, true⟩)
        if outside == C.outer then
          if outside || C.parent.isSome then some ⟨[], C.parent, outside⟩ else none
        else some ⟨[], some wc, !C.outer⟩

/-- topology.rs:1233-1236: walking clockwise around a point. -/
def nextBdy (t : Topo K W) (inside : W → Bool) : Nat → Half → Option Half
  | 0, _ => none
  | f + 1, nbr => if inside (t.windingCw nbr) then nextBdy t inside f (t.nb nbr).cw else some nbr

/-- topology.rs:1260-1262 and 1277-1279: assigning to `seg_contour` for all segments of a path. -/
def setAll (f : Nat → Option Nat) (segs : List Half) (c : Nat) : Nat → Option Nat :=
  segs.foldl (fun f s => set f s.idx (some c)) f

/-- topology.rs:1223-1276: the loop that walks along a contour. -/
def walk (t : Topo K W) (inside : W → Bool) (fuel cidx : Nat) (start : Half) :
    Nat → Half → List Half → CState → Option (List Half × CState)
  | 0, _, _, _ => none
  | f + 1, next, segs, st =>
    let st := { st with visited := set st.visited next.idx true }
    if !inside (t.windingCw next) || inside (t.windingCcw next) || !inside (t.windingCcw (t.nb next).cw) then none else
    match nextBdy t inside fuel (t.nb next).cw with
    | none => none
    | some nbr =>
      let segs := segs ++ [next]
      if nbr = start then some (segs, st) else
      match t.pointIdx nbr with
      | none => none
      | some p =>
        match (st.lastVisit p).filter fun k =>
            decide (k < segs.length) && decide ((segs[k]?).bind (fun s => t.pointIdx s.other) = some p) with
        | some k =>
          match st.contours[cidx]? with
          | none => none
          | some C =>
            walk t inside fuel cidx start f nbr.other (segs.take k)
              { st with
                segContour := setAll st.segContour (segs.drop k) st.contours.length
                contours := st.contours ++ [⟨segs.drop k, some cidx, !C.outer⟩] }
        | none =>
          walk t inside fuel cidx start f nbr.other segs
            { st with lastVisit := set st.lastVisit p (some segs.length) }

/-- topology.rs:1166-1281: the body of the loop over the output segments. -/
def contourAt (t : Topo K W) (inside : W → Bool) (fuel : Nat) (st : CState) (idx : Nat) : Option CState :=
  if st.visited idx then some st
  else if !bdy t inside idx then some st
  else
    let cidx := st.contours.length
    match newContour t inside fuel st idx with
    | none => none
    | some C =>
      let start : Half := if inside (t.winding idx).ccw then ⟨idx, true⟩ else ⟨idx, false⟩
      match t.pointIdx start with
      | none => none
      | some p =>
        if !inside (t.windingCcw start) then none else
        match walk t inside fuel cidx start fuel start.other []
            { st with contours := st.contours ++ [C], lastVisit := set st.lastVisit p (some 0) } with
        | none => none
        | some (segs, st') =>
          some { st' with
            segContour := setAll st'.segContour segs cidx
            contours := st'.contours.modify cidx fun c => { c with path := segs } }

/-- The loop over the output segments. -/
def contoursLoop (t : Topo K W) (inside : W → Bool) (fuel : Nat) : List Nat → CState → Option CState
  | [], st => some st
  | i :: is, st =>
    match contourAt t inside fuel st i with
    | none => none
    | some st' => contoursLoop t inside fuel is st'

/-- topology.rs:882-886 (`segment_indices`). -/
def segmentIndices (t : Topo K W) : List Nat := (List.range t.n).filter fun i => !t.deleted i

/-- topology.rs:1131-1283 (`contours`). -/
def contours (t : Topo K W) (inside : W → Bool) (fuel : Nat) : Option (List Contour) :=
  (contoursLoop t inside fuel (segmentIndices t) ⟨[], fun _ => none, fun _ => false, fun _ => none⟩).map CState.contours

/-! ## Grouping -/

/-- topology.rs:1948-1954: the loop that distributes the contours to `children` and `top_level`. A parent that is out
of bounds is a panic. -/
def groupLoop (cs : List Contour) : List Nat → (Nat → List Nat) → List Nat → Option ((Nat → List Nat) × List Nat)
  | [], children, top => some (children, top)
  | i :: is, children, top =>
    match cs[i]? with
    | none => none
    | some c =>
      match c.parent with
      | some p =>
        if p < cs.length then groupLoop cs is (set children p (children p ++ [i])) top else none
      | none => groupLoop cs is children (top ++ [i])

mutual
/-- topology.rs:1959-1964 (`visit`): depth-first traversal; `fuel` bounds the depth of the recursion. -/
def visit (children : Nat → List Nat) : Nat → Nat → List Nat → Option (List Nat)
  | 0, _, _ => none
  | f + 1, i, acc => visitAll children f (children i) (acc ++ [i])
/-- topology.rs:1961-1963: the loop over the children. -/
def visitAll (children : Nat → List Nat) : Nat → List Nat → List Nat → Option (List Nat)
  | _, [], acc => some acc
  | f, c :: cs, acc =>
    match visit children f c acc with
    | none => none
    | some acc' => visitAll children f cs acc'
end

/-- topology.rs:1956-1967: the loop over `top_level`. -/
def groupTop (children : Nat → List Nat) (fuel : Nat) : List Nat → Option (List (List Nat))
  | [] => some []
  | top :: rest =>
    match visit children fuel top [], groupTop children fuel rest with
    | some tree, some ret => some (tree :: ret)
    | _, _ => none

/-- topology.rs:1945-1970 (`grouped`). -/
def grouped (cs : List Contour) (fuel : Nat) : Option (List (List Nat)) :=
  match groupLoop cs (List.range cs.length) (fun _ => []) [] with
  | none => none
  | some (children, top) => groupTop children fuel top

end Verif.Contours
