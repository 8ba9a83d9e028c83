import Mathlib.Algebra.Group.Defs
import Verif.Range.Lemmas

/-!
# Model of the construction of `Topology` (`src/topology.rs`)

Simplifications, used throughout:
* The growable vectors indexed by output segments (`winding`, `deleted`, `scan_west`, ...) are functions
  together with the counter `n` of allocated output segments; `push` is an update at index `n`.
  (That every index stored anywhere is `< n` is part of the proved invariant.)
* The `usize::MAX` sentinel of `point_idx` (topology.rs:660-663) is `none`.
* `pop_front().expect(..)` on an empty queue is a panic, modelled by `none`.
* Winding numbers are an arbitrary additive group `W`; `tag` and `W::single` are combined into one
  function `single : segment → orientation → W`.
-/

namespace Verif.Topo
open Verif.Range

variable {K : Type} [LinearOrder K] {W : Type} [AddCommGroup W]

/-- topology.rs:197-215 (`HalfOutputSegIdx`); output segment indices are natural numbers. -/
structure Half where
  idx : Nat
  first : Bool
deriving DecidableEq

/-- topology.rs:204-209 (`other_half`). -/
def Half.other (h : Half) : Half := ⟨h.idx, !h.first⟩

/-- topology.rs:339-352 (`PointNeighbors`). -/
structure Nbrs where
  cw : Half
  ccw : Half

/-- topology.rs:123-141 (`HalfSegmentWindingNumbers`). -/
structure HW (W : Type) where
  cw : W
  ccw : W

/-- topology.rs:357-469 (`Topology`): the parts that the construction changes. Coordinates of points are
pairs `(x, y)`. -/
structure Topo (K W : Type) where
  n : Nat
  openSegs : Nat → List Nat
  winding : Nat → HW W
  points : List (K × K)
  pointIdx : Half → Option Nat
  nb : Half → Nbrs
  deleted : Nat → Bool
  scanWest : Nat → Option Nat
  scanEast : Nat → Option Nat
  scanAfter : List (K × Option Nat × Option Nat)
  origSeg : Nat → Nat
  positive : Nat → Bool

/-- Assigning to one place of a vector. -/
def set {α β : Type} [DecidableEq α] (f : α → β) (a : α) (b : β) : α → β := fun x => if x = a then b else f x

/-- topology.rs:490-514 (`from_segments`, the initial value). -/
def Topo.init : Topo K W where
  n := 0
  openSegs := fun _ => []
  winding := fun _ => ⟨0, 0⟩
  points := []
  pointIdx := fun _ => none
  nb := fun h => ⟨h, h⟩
  deleted := fun _ => false
  scanWest := fun _ => none
  scanEast := fun _ => none
  scanAfter := []
  origSeg := fun _ => 0
  positive := fun _ => false

/-- The two local variables `first_seg`, `last_seg` together with the topology. -/
structure PointState (K W : Type) where
  t : Topo K W
  first : Option Half
  last : Option Half

/-- `point_neighbors[a].clockwise = b; point_neighbors[b].counter_clockwise = a`
(topology.rs:576-577, 582-583, 601-602, 607-608). -/
def link (nb : Half → Nbrs) (a b : Half) : Half → Nbrs :=
  let nb1 := set nb a { nb a with cw := b }
  set nb1 b { nb1 b with ccw := a }

/-- topology.rs:570-579: the loop of `add_segs_clockwise`. -/
def addCwLoop (p : Nat) : List Half → PointState K W → PointState K W
  | [], s => s
  | seg :: segs, s =>
    let t1 := { s.t with pointIdx := set s.t.pointIdx seg (some p) }
    let first' := match s.first with | none => some seg | some f => some f
    let t2 := match s.last with
      | some last => { t1 with nb := link t1.nb last seg }
      | none => t1
    addCwLoop p segs ⟨t2, first', some seg⟩

/-- topology.rs:595-604: the loop of `add_segs_counter_clockwise`. -/
def addCcwLoop (p : Nat) : List Half → PointState K W → PointState K W
  | [], s => s
  | seg :: segs, s =>
    let t1 := { s.t with pointIdx := set s.t.pointIdx seg (some p) }
    let last' := match s.last with | none => some seg | some l => some l
    let t2 := match s.first with
      | some first => { t1 with nb := link t1.nb seg first }
      | none => t1
    addCcwLoop p segs ⟨t2, some seg, last'⟩

/-- topology.rs:581-584 and 606-609: close the circle. -/
def closeRing (s : PointState K W) : PointState K W :=
  match s.first, s.last with
  | some first, some last => { s with t := { s.t with nb := link s.t.nb last first } }
  | _, _ => s

/-- topology.rs:563-585 (`add_segs_clockwise`). -/
def addCw (p : Nat) (segs : List Half) (s : PointState K W) : PointState K W := closeRing (addCwLoop p segs s)

/-- topology.rs:588-610 (`add_segs_counter_clockwise`). -/
def addCcw (p : Nat) (segs : List Half) (s : PointState K W) : PointState K W := closeRing (addCcwLoop p segs s)

/-- topology.rs:621-631 (`second_half_segs`). -/
def secondHalves : List Nat → Topo K W → Option (List Half × Topo K W)
  | [], t => some ([], t)
  | s :: ss, t =>
    match t.openSegs s with
    | [] => none
    | o :: os =>
      match secondHalves ss { t with openSegs := set t.openSegs s os } with
      | none => none
      | some (hs, t') => some (⟨o, false⟩ :: hs, t')

/-- topology.rs:645-678 (`new_half_seg`); the new index is `t.n`. -/
def newHalfSeg (t : Topo K W) (seg p : Nat) (w : HW W) (horizontal orientation : Bool) : Topo K W :=
  { t with
    n := t.n + 1
    openSegs := set t.openSegs seg (if horizontal then t.n :: t.openSegs seg else t.openSegs seg ++ [t.n])
    pointIdx := set (set t.pointIdx ⟨t.n, true⟩ (some p)) ⟨t.n, false⟩ none
    nb := set (set t.nb ⟨t.n, true⟩ ⟨⟨t.n, true⟩, ⟨t.n, true⟩⟩) ⟨t.n, false⟩ ⟨⟨t.n, true⟩, ⟨t.n, true⟩⟩
    winding := set t.winding t.n w
    deleted := set t.deleted t.n false
    scanWest := set t.scanWest t.n none
    scanEast := set t.scanEast t.n none
    origSeg := set t.origSeg t.n seg
    positive := set t.positive t.n orientation }

/-- The local variables of the two loops that allocate output segments. -/
structure NewState (K W : Type) where
  t : Topo K W
  winding : W
  scanWest : Option Nat
  lastDown : Option Nat
  buf : List Half

/-- topology.rs:727-741 (`horizontal = false`) and 765-776 (`horizontal = true`): the two loops that
allocate output segments starting at the current point. They differ in the orientation (passed in the
list), in the end of the queue used by `new_half_seg`, and in that only the first updates `scan_west` and
`last_connected_down_seg`. -/
def placeNew (single : Nat → Bool → W) (horizontal : Bool) (p : Nat) :
    List (Nat × Bool) → NewState K W → NewState K W
  | [], s => s
  | (seg, orientation) :: rest, s =>
    let w' := s.winding + single seg orientation
    let t1 := newHalfSeg s.t seg p ⟨s.winding, w'⟩ horizontal orientation
    let t2 := { t1 with scanWest := set t1.scanWest s.t.n s.scanWest }
    placeNew single horizontal p rest
      { t := t2, winding := w'
        scanWest := if horizontal then s.scanWest else some s.t.n
        lastDown := if horizontal then s.lastDown else some s.t.n
        buf := s.buf ++ [⟨s.t.n, true⟩] }

/-- The state of the loop of `process_sweep_line_range`. -/
structure LoopState (K W : Type) where
  t : Topo K W
  r : SLRange K
  winding : W
  scanWest : Option Nat
  lastDown : Option Nat

/-- topology.rs:701-783: the body of the loop, at position `x`. `orient` is
`segments.positively_oriented`. -/
def processPoint (single : Nat → Bool → W) (orient : Nat → Bool) (y x : K) (s : LoopState K W) :
    Option (LoopState K W) :=
  let p := s.t.points.length
  let t0 := { s.t with points := s.t.points ++ [(x, y)] }
  match secondHalves (s.r.active.map HFrag.seg) t0 with
  | none => none
  | some (hs, t1) =>
    let a1 := addCw p hs ⟨t1, none, none⟩
    match s.r.segmentsAtX with
    | none => none
    | some (ups, downs) =>
      match secondHalves ups a1.t with
      | none => none
      | some (us, t2) =>
        let a2 := addCw p us ⟨t2, a1.first, a1.last⟩
        let d := placeNew single false p (downs.map fun s => (s, orient s))
          ⟨a2.t, s.winding, s.scanWest, s.lastDown, []⟩
        let a3 := addCcw p d.buf ⟨d.t, a2.first, a2.last⟩
        let r' := s.r.increaseX
        let g := placeNew single true p (r'.active.map fun h => (h.seg, h.enterFirst == orient h.seg))
          ⟨a3.t, d.winding, d.scanWest, d.lastDown, []⟩
        let a4 := addCcw p g.buf ⟨g.t, a3.first, a3.last⟩
        some ⟨a4.t, r', d.winding, d.scanWest, d.lastDown⟩

theorem processPoint_r (single : Nat → Bool → W) (orient : Nat → Bool) (y x : K) (s s' : LoopState K W)
    (h : processPoint single orient y x s = some s') : s'.r = s.r.increaseX := by
  unfold processPoint at h
  simp only at h
  split at h
  · simp at h
  · split at h
    · simp at h
    · split at h
      · simp at h
      · simp only [Option.some.injEq] at h; rw [← h]

/-- topology.rs:700-784: the loop. -/
def processLoop (single : Nat → Bool → W) (orient : Nat → Bool) (y : K) (s : LoopState K W) :
    Option (LoopState K W) :=
  match h : s.r.x with
  | none => some s
  | some x =>
    match h2 : processPoint single orient y x s with
    | none => none
    | some s' => processLoop single orient y s'
termination_by s.r.size
decreasing_by
  rw [processPoint_r single orient y x s s' h2]
  have := size_step s.r x h
  unfold SLRange.increaseX
  rw [h]
  exact this

/-- topology.rs:686-688: the winding number to the east of an optional output segment (0 if there is none). -/
def eastOf (t : Topo K W) : Option Nat → W
  | none => 0
  | some j => (t.winding j).ccw

/-- topology.rs:680-801 (`process_sweep_line_range`), preceded by the computation of `scan_west_seg` in
`from_segments` (topology.rs:519-529). `west`/`east` are the input segments just outside the range on the
(new) sweep line, `eastChanged` is `east_nbr.is_in_changed_interval()`. -/
def processRange (single : Nat → Bool → W) (orient : Nat → Bool) (y : K) (events : List (OutputEvent K))
    (west east : Option Nat) (eastChanged : Bool) (t : Topo K W) : Option (Topo K W) :=
  let scanWest := west.bind fun s => (t.openSegs s).head?
  let winding := eastOf t scanWest
  match processLoop single orient y ⟨t, SLRange.new events, winding, scanWest, none⟩ with
  | none => none
  | some s =>
    match s.lastDown with
    | some seg =>
      match east with
      | none => some s.t
      | some e =>
        if eastChanged then some s.t
        else some { s.t with scanEast := set s.t.scanEast seg (s.t.openSegs e).head? }
    | none =>
      -- the two `unwrap`s of topology.rs:795-796
      match west.map fun w => (s.t.openSegs w).head?, east.map fun e => (s.t.openSegs e).head? with
      | some none, _ => none
      | _, some none => none
      | w, e =>
        let w := w.join
        let e := e.join
        if w.isSome || e.isSome then some { s.t with scanAfter := s.t.scanAfter ++ [(y, w, e)] }
        else some s.t

/-! ## Reading windings -/

/-- topology.rs:890-897 (`winding_clockwise`). -/
def Topo.windingCw (t : Topo K W) (h : Half) : W := if h.first then (t.winding h.idx).cw else (t.winding h.idx).ccw
/-- topology.rs:900-907 (`winding_counter_clockwise`). -/
def Topo.windingCcw (t : Topo K W) (h : Half) : W := if h.first then (t.winding h.idx).ccw else (t.winding h.idx).cw

/-! ## Merging coincident segments -/

/-- topology.rs:803-807 (`delete_half`). -/
def Topo.deleteHalf (t : Topo K W) (h : Half) : Topo K W :=
  let nbr := t.nb h
  let nb1 := set t.nb nbr.cw { t.nb nbr.cw with ccw := nbr.ccw }
  let nb2 := set nb1 nbr.ccw { nb1 nbr.ccw with cw := nbr.cw }
  { t with nb := nb2 }

/-- topology.rs:809-813 (`delete`). -/
def Topo.delete (t : Topo K W) (seg : Nat) : Topo K W :=
  ({ t with deleted := set t.deleted seg true }.deleteHalf ⟨seg, true⟩).deleteHalf ⟨seg, false⟩

end Verif.Topo
