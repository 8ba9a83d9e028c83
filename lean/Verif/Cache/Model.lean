import Verif.Curve.Model

/-!
# Model of `ComparisonCache` (src/order.rs)

The hash map is a partial function.  `raw i j` stands for
`curve::intersect_cubics(segments[i].to_kurbo_cubic(), segments[j].to_kurbo_cubic(), tolerance, accuracy)`
for a fixed arena; `log` is a ghost list of the pairs on which it was actually evaluated.
-/

namespace Verif.Cache

open Verif.Curve

/-- order.rs:12-17 (`ComparisonCache`; `accuracy` and `tolerance` are inside the parameter `raw`). -/
structure Cache (K : Type) where
  inner : Nat × Nat → Option (CurveOrder K)
  /-- ghost: pairs on which the comparison was computed, newest first -/
  log : List (Nat × Nat)

variable {K : Type} [LinearOrder K]

/-- `HashMap::insert` -/
def mapInsert (m : Nat × Nat → Option (CurveOrder K)) (k : Nat × Nat) (v : CurveOrder K) :
    Nat × Nat → Option (CurveOrder K) :=
  fun k' => if k' = k then some v else m k'

/-- order.rs:28-35, 45-52 (`new`, `new_without_y_slop`). -/
def new : Cache K := ⟨fun _ => none, []⟩

/-- order.rs:57-72 (`compare_segments`). `none` is a panic of `with_y_slop`. -/
def compareSegments (raw : Nat → Nat → CurveOrder K) (isZero : Bool) (down up : K → K)
    (c : Cache K) (i j : Nat) : Option (CurveOrder K × Cache K) :=
  match c.inner (i, j) with
  | some o => some (o, c)
  | none =>
    match (raw i j).withYSlop isZero down up with
    | none => none
    | some forward =>
      let reverse := forward.flip
      let m1 := mapInsert c.inner (j, i) reverse
      let m2 := mapInsert m1 (i, j) forward
      some (forward, ⟨m2, (i, j) :: c.log⟩)

/-- A history of queries: the answers, and the final cache. -/
def run (raw : Nat → Nat → CurveOrder K) (isZero : Bool) (down up : K → K) :
    Cache K → List (Nat × Nat) → Option (List (CurveOrder K) × Cache K)
  | c, [] => some ([], c)
  | c, q :: qs =>
    match compareSegments raw isZero down up c q.1 q.2 with
    | none => none
    | some (o, c') =>
      match run raw isZero down up c' qs with
      | none => none
      | some (os, c'') => some (o :: os, c'')

end Verif.Cache
