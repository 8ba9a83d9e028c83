import Mathlib.Algebra.Order.Ring.Rat

/-!
# Model of `src/lib.rs` (boolean operations: validation, tolerance, inside predicate) and of the winding
numbers of `src/topology.rs` (lines 29-141)

`i32` is `Int` (no overflow).  A double is a rational or one of the special values (no rounding, no
signed zero).
-/

namespace Verif.BinOp

/-! ## Winding numbers -/

/-- topology.rs:56-61 (`BinaryWindingNumber`). -/
structure BinaryWinding where
  shapeA : Int
  shapeB : Int
deriving DecidableEq, Repr

namespace BinaryWinding

/-- topology.rs:55 (`#[derive(Default)]`). -/
def zero : BinaryWinding := ⟨0, 0⟩

/-- topology.rs:66-79 (`single`). -/
def single (tag positive : Bool) : BinaryWinding :=
  let sign := if positive then 1 else -1
  if tag then ⟨sign, 0⟩ else ⟨0, sign⟩

/-- topology.rs:82-91 (`Add`). -/
def add (a b : BinaryWinding) : BinaryWinding := ⟨a.shapeA + b.shapeA, a.shapeB + b.shapeB⟩

/-- topology.rs:93-97 (`AddAssign`, the value left in `self`). -/
def addAssign (self rhs : BinaryWinding) : BinaryWinding := self.add rhs

end BinaryWinding

/-- topology.rs:105-115 (`single` for `i32`). -/
def singleI32 (positive : Bool) : Int := if positive then 1 else -1

/-- topology.rs:123-141 (`HalfSegmentWindingNumbers`). -/
structure HalfWinding (W : Type) where
  counterClockwise : W
  clockwise : W
deriving DecidableEq

/-- topology.rs:138-140 (`is_trivial`). -/
def HalfWinding.isTrivial {W : Type} [DecidableEq W] (h : HalfWinding W) : Bool :=
  h.counterClockwise = h.clockwise

/-! ## The inside predicate -/

/-- lib.rs:37-43 (`FillRule`). -/
inductive FillRule where
  | evenOdd | nonZero
deriving DecidableEq, Repr

/-- lib.rs:46-56 (`BinaryOp`). -/
inductive Op where
  | union | intersection | difference | xor
deriving DecidableEq, Repr

/-- lib.rs:152-155 (`inside_one`). Rust's `%` truncates towards zero. -/
def insideOne (rule : FillRule) (winding : Int) : Bool :=
  match rule with
  | .evenOdd => Int.tmod winding 2 != 0
  | .nonZero => winding != 0

/-- lib.rs:151-163 (`inside`). -/
def inside (rule : FillRule) (op : Op) (w : BinaryWinding) : Bool :=
  match op with
  | .union => insideOne rule w.shapeA || insideOne rule w.shapeB
  | .intersection => insideOne rule w.shapeA && insideOne rule w.shapeB
  | .xor => insideOne rule w.shapeA != insideOne rule w.shapeB
  | .difference => insideOne rule w.shapeA && !insideOne rule w.shapeB

/-! ## Validation and choice of the tolerance -/

/-- Doubles, exactly: finite values are rationals. -/
inductive F where
  | fin (q : ℚ)
  | pinf
  | ninf
  | nan
deriving DecidableEq

namespace F

/-- `f64::min`: a NaN operand is ignored. -/
def min : F → F → F
  | nan, b => b
  | a, nan => a
  | ninf, _ => ninf
  | _, ninf => ninf
  | pinf, b => b
  | a, pinf => a
  | fin a, fin b => fin (if a ≤ b then a else b)

/-- `f64::max`: a NaN operand is ignored. -/
def max : F → F → F
  | nan, b => b
  | a, nan => a
  | pinf, _ => pinf
  | _, pinf => pinf
  | ninf, b => b
  | a, ninf => a
  | fin a, fin b => fin (if a ≤ b then b else a)

/-- `f64::abs`. -/
def abs : F → F
  | fin q => fin (if 0 ≤ q then q else -q)
  | pinf => pinf
  | ninf => pinf
  | nan => nan

/-- Multiplication by a positive finite constant. -/
def mulPos (c : ℚ) : F → F
  | fin q => fin (q * c)
  | x => x

def isInfinite : F → Bool
  | pinf => true
  | ninf => true
  | _ => false

def isNan : F → Bool
  | nan => true
  | _ => false

end F

/-- `kurbo::Rect`. -/
structure Rect where
  x0 : F
  y0 : F
  x1 : F
  y1 : F

namespace Rect

/-- `kurbo::Rect::union`. -/
def union (a b : Rect) : Rect := ⟨a.x0.min b.x0, a.y0.min b.y0, a.x1.max b.x1, a.y1.max b.y1⟩
/-- `kurbo::Rect::{min_x, max_x, min_y, max_y}`. -/
def minX (r : Rect) : F := r.x0.min r.x1
def maxX (r : Rect) : F := r.x0.max r.x1
def minY (r : Rect) : F := r.y0.min r.y1
def maxY (r : Rect) : F := r.y0.max r.y1

end Rect

/-- lib.rs:60-67 (`Error`; `NonClosedPath` comes from a later stage). -/
inductive Err where
  | infinity | nan
deriving DecidableEq

/-- `f64::EPSILON * 64.0` = 2^-46 (lib.rs:116). -/
def relEps : ℚ := 1 / 2 ^ 46
/-- `1e-6` (lib.rs:117), as a rational. -/
def absEps : ℚ := 1 / 1000000

/-- lib.rs:98-117 (`binary_op` up to the call of `binary_op_with_eps`): the error, or the tolerance. -/
def chooseEps (boxA boxB : Rect) : Except Err F :=
  let bbox := boxA.union boxB
  let min := bbox.minX.min bbox.minY
  let max := bbox.maxX.max bbox.maxY
  if min.isInfinite || max.isInfinite then .error .infinity
  else if min.isNan || max.isNan then .error .nan
  else
    let m2 := min.abs.max max.abs
    let eps := m2.mulPos relEps
    .ok (eps.max (.fin absEps))

end Verif.BinOp
