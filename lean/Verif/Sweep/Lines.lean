import Verif.Sweep.Example

/-!
# Sweeps of straight segments

An environment for straight segments with integer slopes, whose comparisons are computed exactly, to test the sweep on concrete inputs.
-/

namespace Verif.Sweep
open Verif.Curve Verif.Range Verif.Topo Verif.Scan Verif.Merge
set_option linter.unusedSectionVars false

/-- A straight segment from `(x0, y0)` down to `(x1, y1)`. If it is not horizontal then `slope` is the change of `x` per unit of height. -/
structure Ln where
  x0 : Int
  y0 : Int
  x1 : Int
  y1 : Int
  slope : Int
  orient : Bool
  prev : Nat
  next : Nat

/-- The horizontal position. -/
def Ln.at (s : Ln) (y : Int) : Int := if s.y0 = s.y1 then s.x1 else s.x0 + s.slope * (y - s.y0)

/-- The comparison of two straight segments with tolerance `T`: left, ish or right of each other, with exact breakpoints. -/
def Ln.compare (T : Int) (a b : Ln) : CurveOrder Int :=
  let lo := max a.y0 b.y0
  let hi := min a.y1 b.y1
  let B := a.slope - b.slope
  let d0 := a.at lo - b.at lo
  if B = 0 ∨ hi ≤ lo then ⟨lo, [⟨hi, if d0 < -T then .left else if T < d0 then .right else .ish⟩]⟩
  else
    -- the heights where the difference is `-T` and `T`
    let p := lo + (-T - d0) / B
    let q := lo + (T - d0) / B
    let c1 := max lo (min hi (min p q))
    let c2 := max lo (min hi (max p q))
    let first : Order := if 0 < B then .left else .right
    let last : Order := if 0 < B then .right else .left
    ⟨lo, (if lo < c1 then [⟨c1, first⟩] else []) ++ (if c1 < c2 then [⟨c2, .ish⟩] else []) ++ (if c2 < hi then [⟨hi, last⟩] else [])⟩

/-- The environment of a list of straight segments, with tolerance `eps`. -/
def linesEnv (eps : Int) (ls : List Ln) : Env Int :=
  let g (s : Nat) : Ln := ls.getD s ⟨0, 0, 0, 0, 0, true, 0, 0⟩
  let lower (s : Nat) (y : Int) : Int := min ((g s).at (max (y - eps) (g s).y0)) ((g s).at (min (y + eps) (g s).y1)) - eps
  let upper (s : Nat) (y : Int) : Int := max ((g s).at (max (y - eps) (g s).y0)) ((g s).at (min (y + eps) (g s).y1)) + eps
  { entrances := stableSort (fun a b => decide (a.1 ≤ b.1)) ((List.range ls.length).map fun s => ((g s).y0, s))
    exits := stableSort (fun a b => decide (a.1 ≤ b.1)) (((List.range ls.length).filter fun s => !decide ((g s).y0 = (g s).y1)).map fun s => ((g s).y1, s))
    startX := fun s => (g s).x0
    startY := fun s => (g s).y0
    endX := fun s => (g s).x1
    endY := fun s => (g s).y1
    orient := fun s => (g s).orient
    contourPrev := fun s => if s < ls.length then some (g s).prev else none
    contourNext := fun s => if s < ls.length then some (g s).next else none
    atY := fun s y => (g s).at y
    lower := lower
    upper := upper
    lower2 := fun s y => lower s y - eps
    upper2 := fun s y => upper s y + eps
    lowerBound := fun s => min (g s).x0 (g s).x1 - eps
    upperBound := fun s => max (g s).x0 (g s).x1 + eps
    farRight := fun a b => decide (max (g a).x0 (g a).x1 + 2 * eps < min (g b).x0 (g b).x1)
    farLeft := fun a b => decide (max (g b).x0 (g b).x1 < min (g a).x0 (g a).x1 - 2 * eps)
    cmp := fun a b => Ln.compare eps (g a) (g b)
    cons := fun a b => Ln.compare (4 * eps) (g a) (g b)
    mid := fun a b => (a + b) / 2
    pp := firstFalse
    negInf := -1000000
    posInf := 1000000 }

/-- A rectangle, a small triangle with the tip down inside it, and a big triangle whose long side crosses both vertical sides of the
rectangle, the right one at the height of the tip. -/
def missed : List Ln :=
  [ ⟨0, -1000, 0, 900, 0, true, 3, 1⟩, ⟨0, 900, 1000, 900, 0, true, 0, 2⟩, ⟨1000, -1000, 1000, 900, 0, false, 1, 3⟩, ⟨0, -1000, 1000, -1000, 0, false, 2, 0⟩,
    ⟨400, -100, 500, 0, 1, true, 6, 5⟩, ⟨600, -100, 500, 0, -1, false, 4, 6⟩, ⟨400, -100, 600, -100, 0, false, 5, 4⟩,
    ⟨1100, -50, -1000, 1000, -2, true, 9, 8⟩, ⟨-1000, 1000, 1100, 1000, 0, true, 7, 9⟩, ⟨1100, -50, 1100, 1000, 0, false, 8, 7⟩ ]

/-- The environment of these ten segments, with `eps = 4`. -/
def missedEnv : Env Int := linesEnv 4 missed

end Verif.Sweep
