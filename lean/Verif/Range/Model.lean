import Mathlib.Order.Defs.LinearOrder
import Mathlib.Order.Lattice

/-!
# Model of `src/sweep/output_event.rs` and `src/sweep/range.rs`

Horizontal positions are an arbitrary linear order `K` (no NaN); `f64::min`/`max` are `min`/`max`.
Segment indices are natural numbers.  `&[OutputEvent]` is a list.
-/

namespace Verif.Range

variable {K : Type} [LinearOrder K]

/-- output_event.rs:20-47 (`OutputEvent`). -/
structure OutputEvent (K : Type) where
  x0 : K
  connectedAbove : Bool
  x1 : K
  connectedBelow : Bool
  segIdx : Nat
  sweepIdx : Option Nat
  oldSweepIdx : Option Nat
deriving DecidableEq

/-- output_event.rs:49-52 (`smaller_x`). -/
def OutputEvent.smallerX (e : OutputEvent K) : K := min e.x0 e.x1
/-- output_event.rs:54-57 (`larger_x`). -/
def OutputEvent.largerX (e : OutputEvent K) : K := max e.x0 e.x1

/-- output_event.rs:79-82 (`connected_above_at`). -/
def OutputEvent.connectedAboveAt (e : OutputEvent K) (x : K) : Bool := decide (x = e.x0) && e.connectedAbove
/-- output_event.rs:84-87 (`connected_below_at`). -/
def OutputEvent.connectedBelowAt (e : OutputEvent K) (x : K) : Bool := decide (x = e.x1) && e.connectedBelow

/-- output_event.rs:90-99 (`Ord for OutputEvent`), as "not greater". -/
def OutputEvent.le (a b : OutputEvent K) : Bool :=
  decide (a.smallerX < b.smallerX) || (decide (a.smallerX = b.smallerX) && decide (a.largerX ≤ b.largerX))

/-- range.rs:11-54 (`HFrag`). -/
structure HFrag (K : Type) where
  seg : Nat
  start : K
  stop : K
  connectedAtStart : Bool
  connectedAtEnd : Bool
  enterFirst : Bool
  sweepIdx : Option Nat
  oldSweepIdx : Option Nat

/-- range.rs:59-89 (`HFrag::from_position`). -/
def HFrag.fromPosition (pos : OutputEvent K) : Option (HFrag K) :=
  if pos.x0 = pos.x1 then none
  else
    let enterFirst := decide (pos.x0 < pos.x1)
    let q := if enterFirst then (pos.x0, pos.x1, pos.connectedAbove, pos.connectedBelow)
      else (pos.x1, pos.x0, pos.connectedBelow, pos.connectedAbove)
    some
      { stop := q.2.1, start := q.1, enterFirst := enterFirst, seg := pos.segIdx
        connectedAtStart := q.2.2.1, connectedAtEnd := q.2.2.2
        sweepIdx := pos.sweepIdx, oldSweepIdx := pos.oldSweepIdx }

/-- range.rs:91-95 (`connected_above_at`). -/
def HFrag.connectedAboveAt (h : HFrag K) (x : K) : Bool :=
  (decide (x = h.start) && h.enterFirst && h.connectedAtStart) ||
  (decide (x = h.stop) && !h.enterFirst && h.connectedAtEnd)

/-- range.rs:97-101 (`connected_below_at`). -/
def HFrag.connectedBelowAt (h : HFrag K) (x : K) : Bool :=
  (decide (x = h.start) && !h.enterFirst && h.connectedAtStart) ||
  (decide (x = h.stop) && h.enterFirst && h.connectedAtEnd)

/-- range.rs:110-117 (`SweepLineRange`): the fields that change. `bufs.active_horizontals` is `active`;
`SweepLineRange::new` is called with cleared buffers (sweep_line.rs:1390, 1590), so `active` starts empty. -/
structure SLRange (K : Type) where
  lastX : Option K
  active : List (HFrag K)
  events : List (OutputEvent K)

/-- range.rs:119-141 (`SweepLineRange::new`). -/
def SLRange.new (events : List (OutputEvent K)) : SLRange K := ⟨none, [], events⟩

/-- range.rs:147-157 (`x`). -/
def SLRange.x (r : SLRange K) : Option K :=
  match r.active.head?, r.events.head? with
  | none, none => none
  | none, some pos => some pos.smallerX
  | some h, none => some h.stop
  | some h, some pos => some (min h.stop pos.smallerX)

/-- range.rs:159-163 (`positions_at_x`). -/
def SLRange.positionsAtX (r : SLRange K) (x : K) : List (OutputEvent K) :=
  r.events.takeWhile fun p => decide (p.smallerX = x)

/-- Push `(seg, idx.unwrap())` if connected; `none` is a panic of `unwrap`. -/
def pushIf (c : Bool) (seg : Nat) (idx : Option Nat) (acc : List (Nat × Nat)) : Option (List (Nat × Nat)) :=
  if c then idx.map fun i => acc ++ [(seg, i)] else some acc

/-- range.rs:173-184: the loop over the active horizontals. -/
def gatherActive (x : K) : List (HFrag K) → List (Nat × Nat) × List (Nat × Nat) →
    Option (List (Nat × Nat) × List (Nat × Nat))
  | [], acc => some acc
  | h :: hs, (up, down) =>
    match pushIf (h.connectedAboveAt x) h.seg h.oldSweepIdx up,
          pushIf (h.connectedBelowAt x) h.seg h.sweepIdx down with
    | some up', some down' => gatherActive x hs (up', down')
    | _, _ => none

/-- range.rs:186-196: the loop over the events at `x`. -/
def gatherEvents (x : K) : List (OutputEvent K) → List (Nat × Nat) × List (Nat × Nat) →
    Option (List (Nat × Nat) × List (Nat × Nat))
  | [], acc => some acc
  | e :: es, (up, down) =>
    match pushIf (e.connectedAboveAt x) e.segIdx e.oldSweepIdx up,
          pushIf (e.connectedBelowAt x) e.segIdx e.sweepIdx down with
    | some up', some down' => gatherEvents x es (up', down')
    | _, _ => none

/-- range.rs:165-202 (`update_segments_at_x`), returning the segments of `connected_up()` and
`connected_down()` (range.rs:402-417). `sort_by_key` is a stable merge sort. -/
def SLRange.segmentsAtX (r : SLRange K) : Option (List Nat × List Nat) :=
  match r.x with
  | none => some ([], [])
  | some x =>
    match gatherActive x r.active ([], []) with
    | none => none
    | some acc =>
      match gatherEvents x (r.positionsAtX x) acc with
      | none => none
      | some (up, down) =>
        some ((up.mergeSort fun a b => decide (a.2 ≤ b.2)).map Prod.fst,
              (down.mergeSort fun a b => decide (a.2 ≤ b.2)).map Prod.fst)

/-- range.rs:314-322 (`drain_active_horizontals`). -/
def drainActive (active : List (HFrag K)) (x : K) : List (HFrag K) :=
  active.dropWhile fun h => !decide (x < h.stop)

/-- range.rs:298-307 (and 270-283 without the emitted points): take the events with `smaller_x ≤ x`,
turning those with an extent into active horizontals. -/
def takeEvents (x : K) : List (HFrag K) → List (OutputEvent K) → List (HFrag K) × List (OutputEvent K)
  | active, [] => (active, [])
  | active, ev :: evs =>
    if x < ev.smallerX then (active, ev :: evs)
    else
      match HFrag.fromPosition ev with
      | some h => takeEvents x (active ++ [h]) evs
      | none => takeEvents x active evs

/-- range.rs:308-311: `active_horizontals.sort_by_key(|a| a.end)`. -/
def sortActive (active : List (HFrag K)) : List (HFrag K) :=
  active.mergeSort fun a b => decide (a.stop ≤ b.stop)

/-- range.rs:293-312 (`increase_x`). -/
def SLRange.increaseX (r : SLRange K) : SLRange K :=
  match r.x with
  | none => { r with active := sortActive r.active }
  | some x =>
    let q := takeEvents x (drainActive r.active x) r.events
    { r with active := sortActive q.1, events := q.2 }

/-- range.rs:238-263: the pieces emitted for the active horizontals. -/
def activePiece (lastX nextX : K) (h : HFrag K) : OutputEvent K :=
  let x0 := lastX
  let x1 := min nextX h.stop
  let connectedEnd := decide (x1 = h.stop) && h.connectedAtEnd
  let connectedStart := decide (x0 = h.start) && h.connectedAtStart
  if h.enterFirst then ⟨x0, connectedStart, x1, connectedEnd, h.seg, h.sweepIdx, h.oldSweepIdx⟩
  else ⟨x1, connectedEnd, x0, connectedStart, h.seg, h.sweepIdx, h.oldSweepIdx⟩

/-- range.rs:271-280: events at `x` without extent are emitted immediately. -/
def pointEvents (x : K) : List (OutputEvent K) → List (OutputEvent K)
  | [] => []
  | ev :: evs =>
    if x < ev.smallerX then []
    else if ev.x0 = ev.x1 then ev :: pointEvents x evs
    else pointEvents x evs

/-- The result of one call of `events()`. -/
inductive Batch (K : Type) where
  /-- `None`: finished. -/
  | done
  /-- The `unwrap` of `last_x` at range.rs:240 panics. -/
  | panic
  | batch (evs : List (OutputEvent K)) (r : SLRange K)

/-- range.rs:230-291 (`events`). -/
def SLRange.nextEvents (r : SLRange K) : Batch K :=
  match r.x with
  | none => .done
  | some nextX =>
    match r.active, r.lastX with
    | _ :: _, none => .panic
    | active, lastX =>
      let pieces := match lastX with
        | some lx => active.map (activePiece lx nextX)
        | none => []
      let q := takeEvents nextX (drainActive active nextX) r.events
      .batch (pieces ++ pointEvents nextX r.events)
        { lastX := some nextX, active := sortActive q.1, events := q.2 }

end Verif.Range
