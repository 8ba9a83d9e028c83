import Mathlib.Order.Defs.LinearOrder

/-!
# Model of the curve comparison structure `CurveOrder` in `src/curve/mod.rs` (lines 11-317)

Heights (`f64` in the code) are an arbitrary linear order `K` (no NaN).  Arithmetic on heights is
abstracted by parameters that cover both exact and correctly rounded arithmetic:
`down e` for `e - slop`, `up s` for `s + slop` and `mid y0 y1` for `(y0 + y1) / 2.0`.
A panic (`unwrap`, `unreachable!`, `debug_assert!`) is `none`.
-/

namespace Verif.Curve

/-- curve/mod.rs:718-725 (`enum Order`). -/
inductive Order where
  | right | ish | left
deriving DecidableEq, Repr

/-- curve/mod.rs:729-735 (`Order::flip`); the same match is repeated in `CurveOrderEntry::flip`
(17-27). -/
def Order.flip : Order → Order
  | .right => .left
  | .ish => .ish
  | .left => .right

/-- curve/mod.rs:11-15 (`CurveOrderEntry`). -/
structure Entry (K : Type) where
  stop : K
  order : Order
deriving DecidableEq

/-- curve/mod.rs:17-27 (`CurveOrderEntry::flip`). -/
def Entry.flip {K : Type} (e : Entry K) : Entry K := ⟨e.stop, e.order.flip⟩

/-- curve/mod.rs:58-61 (`struct CurveOrder`). -/
structure CurveOrder (K : Type) where
  start : K
  cmps : List (Entry K)
deriving DecidableEq

/-- The items produced by the iterator (curve/mod.rs:79): `(start, end, order)`. -/
structure Piece (K : Type) where
  lo : K
  hi : K
  order : Order
deriving DecidableEq

/-- curve/mod.rs:70-76 (`CurveInteraction`). -/
inductive Interaction (K : Type) where
  | cross (y : K)
  | touch (y : K)
deriving DecidableEq

/-- curve/mod.rs:78-87 (`CurveOrderIter::next`, run to the end): `next` carries the previous end. -/
def pieces {K : Type} : K → List (Entry K) → List (Piece K)
  | _, [] => []
  | next, e :: es => ⟨next, e.stop, e.order⟩ :: pieces e.stop es

namespace CurveOrder

variable {K : Type}

/-- curve/mod.rs:91-96 (`CurveOrder::new`). -/
def new (start : K) : CurveOrder K := ⟨start, []⟩

/-- curve/mod.rs:134-139 (`CurveOrder::iter`), as the list of produced items. -/
def iter (c : CurveOrder K) : List (Piece K) := pieces c.start c.cmps

/-- curve/mod.rs:142-147 (`CurveOrder::flip`). -/
def flip (c : CurveOrder K) : CurveOrder K := ⟨c.start, c.cmps.map Entry.flip⟩

variable [LinearOrder K]

/-- curve/mod.rs:98-131 (`CurveOrder::push`). `none` is a failed `debug_assert!(end >= last.end)`. -/
def push (c : CurveOrder K) (stop : K) (order : Order) : Option (CurveOrder K) :=
  match c.cmps.getLast? with
  | none => some ⟨c.start, [⟨stop, order⟩]⟩
  | some last =>
    if stop < last.stop then none
    else
      match last.order, order with
      | .right, .right | .left, .left | .ish, .ish =>
        some ⟨c.start, c.cmps.dropLast ++ [⟨stop, last.order⟩]⟩
      | .right, .left | .left, .right =>
        some ⟨c.start, c.cmps ++ [⟨stop, .ish⟩, ⟨stop, order⟩]⟩
      | _, _ =>
        if last.stop < stop then some ⟨c.start, c.cmps ++ [⟨stop, order⟩]⟩ else some c

/-- curve/mod.rs:155-186 (`next_touch_after`).  The recursion of the code is bounded by `fuel`
here; running out of fuel is `none` (proved not to happen with `fuel > cmps.len()`), as is hitting
`unreachable!()`.  The inner option is the returned `Option<CurveInteraction>`. -/
def nextTouchAfter (mid : K → K → K) (c : CurveOrder K) : Nat → K → Option (Option (Interaction K))
  | 0, _ => none
  | fuel + 1, y =>
    match (c.iter.dropWhile (fun p => p.hi ≤ y)).dropWhile (fun p => p.order = .left) with
    | [] => some none
    | p :: rest =>
      if p.order = .right then some (some (.cross y))
      else
        match rest with
        | [] => some none
        | q :: _ =>
          match q.order with
          | .right => some (some (.cross (mid p.lo p.hi)))
          | .left =>
            if y < p.lo then some (some (.touch (mid p.lo p.hi)))
            else nextTouchAfter mid c fuel q.hi
          | .ish => none

/-- curve/mod.rs:225-246: the loop of `with_y_slop` (the entries pushed to `ret`). -/
def slopLoop (down up : K → K) (start lastEnd : K) : List (Piece K) → List (Entry K)
  | [] => []
  | p :: ps =>
    let newEnd := if p.hi = lastEnd then p.hi else down p.hi
    let newStart := if p.lo = start then p.lo else up p.lo
    (if p.order ≠ .ish ∧ newStart < newEnd then
      (if newStart ≠ start then [⟨newStart, .ish⟩] else []) ++ [⟨newEnd, p.order⟩]
    else []) ++ slopLoop down up start lastEnd ps

/-- curve/mod.rs:211-259 (`with_y_slop`); `isZero` says whether `slop == 0.0`. `none` models the
panic of `unwrap` on an empty comparison. -/
def withYSlop (isZero : Bool) (down up : K → K) (c : CurveOrder K) : Option (CurveOrder K) :=
  if isZero then some c
  else
    match c.cmps.getLast? with
    | none => none
    | some last =>
      if c.start = last.stop then some c
      else
        let ret := slopLoop down up c.start last.stop c.iter
        if (match ret.getLast? with | none => true | some l => l.stop ≠ last.stop) then
          some ⟨c.start, ret ++ [⟨last.stop, .ish⟩]⟩
        else some ⟨c.start, ret⟩

/-- curve/mod.rs:284-289 (`order_at`). -/
def orderAt (c : CurveOrder K) (y : K) : Option Order :=
  (c.iter.find? (fun p => y ≤ p.hi)).map Piece.order

/-- curve/mod.rs:296-298 (`entry_at`). -/
def entryAt (c : CurveOrder K) (y : K) : Option (Piece K) :=
  c.iter.find? (fun p => y < p.hi)

/-- curve/mod.rs:307-316 (`order_after`). -/
def orderAfter (c : CurveOrder K) (y : K) : Option Order :=
  match c.cmps.getLast? with
  | none => none
  | some last =>
    if y = last.stop then some last.order
    else
      some (match (c.iter.dropWhile (fun p => p.hi ≤ y)).find? (fun p => p.order ≠ .ish) with
        | none => .ish
        | some p => p.order)

/-- curve/mod.rs:262-271 (`check_invariants`) on the entry list. -/
def checkEntries : List (Entry K) → Bool
  | [] => true
  | [_] => true
  | a :: b :: rest =>
    decide (a.stop ≤ b.stop) && decide (a.order ≠ b.order) &&
      (decide (a.order = .ish) || decide (b.order = .ish)) && checkEntries (b :: rest)

/-- curve/mod.rs:262-271 (`check_invariants`): panics (here `false`) if empty or violated. -/
def checkInvariants (c : CurveOrder K) : Bool := !c.cmps.isEmpty && checkEntries c.cmps

end CurveOrder

end Verif.Curve
