import Verif.Geom.EstMono

/-!
# Model of `intersect_cubics` (`src/curve/mod.rs`:893-1222)

Exact arithmetic, as in `Geom/Model.lean`. `none` is a failed assertion (`debug_assert!` in `CurveOrder::push`, `unwrap` of an empty list)
or running out of fuel; the theorems show that enough fuel exists.
-/

namespace Verif.Geom
open Verif.Curve

/-- curve/mod.rs:970-972 (`l_infty_distance`). -/
noncomputable def lInfty (p q : Pt) : ℝ := max |p.x - q.x| |p.y - q.y|

/-- curve/mod.rs:974-979 (`max_distance`). -/
noncomputable def maxDistance (c d : Cubic) : ℝ :=
  max (max (max (lInfty c.p0 d.p0) (lInfty c.p1 d.p1)) (lInfty c.p2 d.p2)) (lInfty c.p3 d.p3)

/-- `kurbo::Affine::rotate_about` by `s` times 45 degrees, `s` being `1` or `-1`. -/
noncomputable def rotPt (s : ℝ) (z p : Pt) : Pt :=
  ⟨z.x + Real.sqrt 2 / 2 * (p.x - z.x) - s * (Real.sqrt 2 / 2) * (p.y - z.y), z.y + s * (Real.sqrt 2 / 2) * (p.x - z.x) + Real.sqrt 2 / 2 * (p.y - z.y)⟩

/-- A transformed curve. -/
noncomputable def rotC (s : ℝ) (z : Pt) (c : Cubic) : Cubic := ⟨rotPt s z c.p0, rotPt s z c.p1, rotPt s z c.p2, rotPt s z c.p3⟩

/-- curve/mod.rs:925-930: the control points are in order of height. -/
def Cubic.CtrlMono (c : Cubic) : Prop := ¬ (c.p1.y < c.p0.y ∨ c.p2.y < c.p1.y ∨ c.p3.y < c.p2.y)

open Classical in
/-- curve/mod.rs:936-942, 1206-1212: the order of two numbers up to a tolerance. -/
noncomputable def tolOrder (x0 x1 tol : ℝ) : Order := if x0 < x1 - tol then .left else if x1 + tol < x0 then .right else .ish

/-- `self.cmps.last_mut().unwrap().end = y`. -/
def setLast (c : CurveOrder ℝ) (y : ℝ) : Option (CurveOrder ℝ) :=
  match c.cmps.getLast? with
  | none => none
  | some l => some ⟨c.start, c.cmps.dropLast ++ [⟨y, l.order⟩]⟩

/-- curve/mod.rs:959-963: the results of the rotated comparison are transferred. -/
noncomputable def transfer (c0 c1 : Cubic) (s : ℝ) (z : Pt) (y0 y1 : ℝ) : CurveOrder ℝ → List (Piece ℝ) → Option (CurveOrder ℝ)
  | out, [] => some out
  | out, p :: ps =>
    let x1 := (solveX c0 p.hi + solveX c1 p.hi) / 2
    let q := rotPt (-s) z ⟨x1, p.hi⟩
    match out.push (min (max q.y y0) y1) p.order with
    | none => none
    | some out => transfer c0 c1 s z y0 y1 out ps

open Classical in
/-- curve/mod.rs:920-967 of `with_rotation`: the comparison after the rotation by `s` times 45 degrees about `z`. -/
noncomputable def rotated (go : Cubic → Cubic → ℝ → ℝ → CurveOrder ℝ → Option (CurveOrder ℝ)) (tol : ℝ) (c0 c1 : Cubic) (y0 y1 : ℝ)
    (out : CurveOrder ℝ) (s : ℝ) (z : Pt) : Option (Option (CurveOrder ℝ)) :=
  let r0 := rotC s z c0
  let r1 := rotC s z c1
  if ¬ r0.CtrlMono then none
  else if ¬ r1.CtrlMono then none
  else
    let z0 := max r0.p0.y r1.p0.y
    let z1 := min r0.p3.y r1.p3.y
    if z1 ≤ z0 then some (out.push y1 (tolOrder c0.p0.x c1.p0.x tol))
    else
      match go r0 r1 z0 z1 (CurveOrder.new z0) with
      | none => some none
      | some ord =>
        match transfer r0 r1 s z y0 y1 out ord.iter with
        | none => some none
        | some out => some (setLast out y1)

open Classical in
/-- curve/mod.rs:893-968 (`with_rotation`); `go` is the recursive call. The outer `none` is the result `false`. The signs of `dx0` and `dx1`
are compared after the test on their sizes, which makes no difference because they are then not zero. -/
noncomputable def withRotation (go : Cubic → Cubic → ℝ → ℝ → CurveOrder ℝ → Option (CurveOrder ℝ)) (tol : ℝ) (c0 c1 : Cubic) (y0 y1 : ℝ)
    (out : CurveOrder ℝ) : Option (Option (CurveOrder ℝ)) :=
  let dx0 := c0.p3.x - c0.p0.x
  let dx1 := c1.p3.x - c1.p0.x
  let dy := y1 - y0
  if |dx0| < dy * 16 ∨ |dx1| < dy * 16 then none
  else if ¬ (0 < dx0 ↔ 0 < dx1) then none
  else rotated go tol c0 c1 y0 y1 out (if 0 < dx0 then 1 else -1) ⟨(c0.p0.x + c0.p3.x) / 2, (y0 + y1) / 2⟩

/-- curve/mod.rs:1026-1033, for one curve. -/
noncomputable def rescaleC (mid scale : ℝ) (c : Cubic) : Cubic :=
  ⟨⟨c.p0.x, (c.p0.y - mid) * scale⟩, ⟨c.p1.x, (c.p1.y - mid) * scale⟩, ⟨c.p2.x, (c.p2.y - mid) * scale⟩, ⟨c.p3.x, (c.p3.y - mid) * scale⟩⟩

/-- curve/mod.rs:863-867 (`max_param`). -/
noncomputable def EstParab.maxParam (p : EstParab) : ℝ := max (max |p.c0| |p.c1|) |p.c2|

/-- curve/mod.rs:1035-1049: the estimate of the difference, padded. -/
noncomputable def paddedDiff (e0 e1 : EstParab) : EstParab :=
  let dep := e1.sub e0
  let err := max e0.maxParam e1.maxParam * (1 / 10 ^ 12)
  { dep with dmax := dep.dmax + err, dmin := dep.dmin - err }

/-- curve/mod.rs:1070-1074: back to the original heights. -/
noncomputable def unscale (mid uns y0 y1 : ℝ) (c : CurveOrder ℝ) : Option (CurveOrder ℝ) :=
  setLast ⟨y0, c.cmps.map fun e => ⟨min (max (e.stop * uns + mid) y0) y1, e.order⟩⟩ y1

open Classical in
/-- curve/mod.rs:1109-1138: one piece of the comparison of the estimates. -/
noncomputable def onePiece (go : ℝ → ℝ → CurveOrder ℝ → Option (CurveOrder ℝ)) (acc y0 y1 spread : ℝ) (out : CurveOrder ℝ) (p : Piece ℝ) :
    Option (CurveOrder ℝ) :=
  if p.order = .ish then
    let mid := 1 / 2 * (p.lo + p.hi)
    if y1 - y0 ≤ acc ∨ spread ≤ acc then out.push p.hi p.order
    else if p.hi - p.lo < 1 / 2 * (y1 - y0) then go p.lo p.hi out
    else (go p.lo mid out).bind (go mid p.hi)
  else out.push p.hi p.order

/-- curve/mod.rs:1099-1139: the loop over the pieces. -/
noncomputable def allPieces (go : ℝ → ℝ → CurveOrder ℝ → Option (CurveOrder ℝ)) (acc y0 y1 spread : ℝ) : CurveOrder ℝ → List (Piece ℝ) → Option (CurveOrder ℝ)
  | out, [] => some out
  | out, p :: ps => (onePiece go acc y0 y1 spread out p).bind fun out => allPieces go acc y0 y1 spread out ps

open Classical in
/-- curve/mod.rs:1003-1011: the coarse comparison. -/
noncomputable def boxOrder (c0 c1 : Cubic) (tol : ℝ) : Order :=
  if c0.bboxMax + tol ≤ c1.bboxMin then .left else if c1.bboxMax + tol ≤ c0.bboxMin then .right else .ish

/-- curve/mod.rs:1020-1049, 1051-1074 of `intersect_cubics_rec`: the estimate of the difference of two pieces. -/
noncomputable def diffEst (solve : ℝ → ℝ → ℝ → ℝ → List ℝ) (c0 c1 : Cubic) (y0 y1 : ℝ) : EstParab :=
  let mid := (y0 + y1) / 2
  let scale := 1 / max (y1 - y0) 1
  paddedDiff (fromCubic solve (rescaleC mid scale c0)) (fromCubic solve (rescaleC mid scale c1))

open Classical in
/-- curve/mod.rs:981-1140 (`intersect_cubics_rec`), without the `debug_assert!`s on the result (they are implied by the theorems). `solve` is
`solve_cubic_in_unit_interval`. -/
noncomputable def intersectRec (solve : ℝ → ℝ → ℝ → ℝ → List ℝ) (tol acc : ℝ) : ℕ → Cubic → Cubic → ℝ → ℝ → CurveOrder ℝ → Option (CurveOrder ℝ)
  | 0, _, _, _, _, _ => none
  | n + 1, o0, o1, y0, y1, out =>
    let c0 := ySubsegment o0 y0 y1
    let c1 := ySubsegment o1 y0 y1
    if maxDistance c0 c1 ≤ tol then out.push y1 .ish
    else if y1 - y0 < acc then out.push y1 (boxOrder c0 c1 tol)
    else
      match withRotation (intersectRec solve tol acc n) tol c0 c1 y0 y1 out with
      | some r => r
      | none =>
        let mid := (y0 + y1) / 2
        let uns := max (y1 - y0) 1
        let scale := 1 / uns
        let dep := diffEst solve c0 c1 y0 y1
        match pushQuadraticSigns dep.c2 dep.c1 dep.c0 (-dep.dmax - tol) (-dep.dmin + tol) ((y0 - mid) * scale) ((y1 - mid) * scale) (CurveOrder.new (y0 - mid)) with
        | none => none
        | some scratch =>
          match unscale mid uns y0 y1 scratch with
          | none => none
          | some scratch => allPieces (intersectRec solve tol acc n o0 o1) acc y0 y1 (dep.dmax - dep.dmin) out scratch.iter

open Classical in
/-- curve/mod.rs:1189-1222 (`intersect_cubics`). If the ranges of height do not overlap the result is empty and the last assertion fails. -/
noncomputable def intersectCubics (solve : ℝ → ℝ → ℝ → ℝ → List ℝ) (tol acc : ℝ) (fuel : ℕ) (c0 c1 : Cubic) : Option (CurveOrder ℝ) :=
  let y0 := max c0.p0.y c1.p0.y
  let y1 := min c0.p3.y c1.p3.y
  if y0 < y1 then intersectRec solve tol acc fuel c0 c1 y0 y1 (CurveOrder.new y0)
  else if y0 = y1 then
    let xs : ℝ × ℝ := if c0.p0.y = c1.p3.y then (c0.p0.x, c1.p3.x) else (c0.p3.x, c1.p0.x)
    (CurveOrder.new y0).push y1 (tolOrder xs.1 xs.2 tol)
  else none

end Verif.Geom
