import Verif.Contours.Model

/-! Specification: consistent topologies, boundary segments, closed paths. -/

namespace Verif.Contours
open Verif.Topo

variable {K : Type} {W : Type}

/-- A half-segment of an output segment that has not been deleted. -/
def Live (t : Topo K W) (h : Half) : Prop := h.idx < t.n ∧ t.deleted h.idx = false

/-- The half-segments that are still there are arranged in circles around their points, and the windings recorded on
the two sides of the wedges fit. The segment recorded as the nearest one to the left precedes in sweep order. -/
structure Consistent (t : Topo K W) : Prop where
  cw : ∀ h, Live t h → Live t (t.nb h).cw ∧ (t.nb (t.nb h).cw).ccw = h ∧ t.pointIdx (t.nb h).cw = t.pointIdx h
  pt : ∀ h, Live t h → ∃ p, t.pointIdx h = some p
  fit : ∀ h, Live t h → t.windingCw h = t.windingCcw (t.nb h).cw
  west : ∀ i < t.n, ∀ j, t.scanWest i = some j → j < i

/-- `LiveWest t o r`: starting at `o` and going left along the recorded neighbours, `r` is the first output segment
that is not deleted. -/
inductive LiveWest (t : Topo K W) : Option Nat → Option Nat → Prop
  | none : LiveWest t none none
  | live (j : Nat) : t.deleted j = false → LiveWest t (some j) (some j)
  | skip (j : Nat) (r : Option Nat) : t.deleted j = true → LiveWest t (t.scanWest j) r → LiveWest t (some j) r

/-- As `LiveWest`, but the first one that is not deleted and on the boundary of the set. -/
inductive BdyWest (t : Topo K W) (inside : W → Bool) : Option Nat → Option Nat → Prop
  | none : BdyWest t inside none none
  | live (j : Nat) : t.deleted j = false → inside (t.winding j).cw ≠ inside (t.winding j).ccw →
      BdyWest t inside (some j) (some j)
  | skip (j : Nat) (r : Option Nat) : t.deleted j = true ∨ inside (t.winding j).cw = inside (t.winding j).ccw →
      BdyWest t inside (t.scanWest j) r → BdyWest t inside (some j) r

/-- On the clockwise side of `h` is the set, on the other side is not. A contour visits its segments with the set on the
left (`y` pointing down), so the half-segment at which it arrives has the set on its clockwise side. -/
def IsEnd (t : Topo K W) (inside : W → Bool) (h : Half) : Prop :=
  Live t h ∧ inside (t.windingCw h) = true ∧ inside (t.windingCcw h) = false

/-- The path is not empty, each segment starts where the previous one ends, and the first one starts where the last one
ends. Segments are given by the half-segment at which they are left. -/
def Closed (t : Topo K W) (path : List Half) : Prop :=
  path ≠ [] ∧ ∀ k (h : k < path.length), t.pointIdx (path[(k + 1) % path.length]'(Nat.mod_lt _ (by omega))).other = t.pointIdx path[k]

/-- No point is visited twice. -/
def Simple (t : Topo K W) (path : List Half) : Prop := (path.map t.pointIdx).Nodup

end Verif.Contours
