import Verif.Curve.Model
import Mathlib.Analysis.Real.Sqrt
import Mathlib.Data.EReal.Basic

/-!
# Model of the geometry: `src/geom.rs`, `src/num.rs`, `src/curve/transverse.rs` and the numerical part of `src/curve/mod.rs`

Exact arithmetic: a finite `f64` is a real number. An operation that gives an infinity or NaN in the code because of a division by zero is
modelled by a case distinction on the divisor; overflow and rounding are not modelled.
-/

namespace Verif.Geom
open Verif.Curve

/-! ## Points -/

/-- An `f64` for comparisons only: NaN or a number (`K` may contain infinities). -/
inductive Flt (K : Type) where
  | nan
  | num (x : K)
deriving DecidableEq

section
variable {K : Type} [LinearOrder K]

/-- IEEE `<`: false if one side is NaN. -/
def Flt.lt : Flt K → Flt K → Bool
  | .num a, .num b => decide (a < b)
  | _, _ => false

/-- num.rs:112-121 (`Ord for CheapOrderedFloat`). -/
def cheapCmp (a b : Flt K) : Ordering := if a.lt b then .lt else if b.lt a then .gt else .eq

/-- geom.rs:14-26 (`Point`). -/
structure FPoint (K : Type) where
  y : Flt K
  x : Flt K

/-- geom.rs:28-39 (`Ord for Point`): tuples are compared lexicographically. -/
def FPoint.cmp (p q : FPoint K) : Ordering := (cheapCmp p.y q.y).then (cheapCmp p.x q.x)
end

/-- A point with real coordinates. -/
@[ext] structure Pt where
  x : ℝ
  y : ℝ

/-- geom.rs:71-76 (`affine`). -/
def Pt.affine (p q : Pt) (t : ℝ) : Pt := ⟨(1 - t) * p.x + t * q.x, (1 - t) * p.y + t * q.y⟩

/-! ## Cubic Béziers -/

/-- `kurbo::CubicBez`. -/
@[ext] structure Cubic where
  p0 : Pt
  p1 : Pt
  p2 : Pt
  p3 : Pt

/-- One coordinate of a cubic Bézier. -/
def bez3 (a b c d t : ℝ) : ℝ := (1 - t) ^ 3 * a + 3 * (1 - t) ^ 2 * t * b + 3 * (1 - t) * t ^ 2 * c + t ^ 3 * d

/-- One coordinate of a quadratic Bézier. -/
def bez2 (a b c t : ℝ) : ℝ := (1 - t) ^ 2 * a + 2 * (1 - t) * t * b + t ^ 2 * c

/-- `kurbo::CubicBez::eval`. -/
def Cubic.eval (c : Cubic) (t : ℝ) : Pt := ⟨bez3 c.p0.x c.p1.x c.p2.x c.p3.x t, bez3 c.p0.y c.p1.y c.p2.y c.p3.y t⟩

/-- `kurbo::CubicBez::deriv`, as control points of a quadratic Bézier. -/
def Cubic.deriv (c : Cubic) : Pt × Pt × Pt :=
  (⟨3 * (c.p1.x - c.p0.x), 3 * (c.p1.y - c.p0.y)⟩, ⟨3 * (c.p2.x - c.p1.x), 3 * (c.p2.y - c.p1.y)⟩, ⟨3 * (c.p3.x - c.p2.x), 3 * (c.p3.y - c.p2.y)⟩)

/-- The derivative of a cubic Bézier at a parameter. -/
def Cubic.derivAt (c : Cubic) (t : ℝ) : Pt :=
  ⟨bez2 c.deriv.1.x c.deriv.2.1.x c.deriv.2.2.x t, bez2 c.deriv.1.y c.deriv.2.1.y c.deriv.2.2.y t⟩

/-- `kurbo::CubicBez::subsegment`: the end points are evaluated and the control points are placed on the tangents. -/
noncomputable def Cubic.subsegment (c : Cubic) (t0 t1 : ℝ) : Cubic :=
  let p0 := c.eval t0
  let p3 := c.eval t1
  let s := (t1 - t0) * (1 / 3)
  let d0 := c.derivAt t0
  let d1 := c.derivAt t1
  ⟨p0, ⟨p0.x + s * d0.x, p0.y + s * d0.y⟩, ⟨p3.x - s * d1.x, p3.y - s * d1.y⟩, p3⟩

open Classical in
/-- curve/mod.rs:336-374 (`solve_t_for_y`). The root finder is taken at its word: it returns the roots in `[0, 1]` in increasing order, and
the code takes the first. In exact arithmetic there is always one (`solveT_spec`), so the last lines of the function are not reached. -/
noncomputable def solveT (c : Cubic) (y : ℝ) : ℝ :=
  if y = c.p0.y then 0
  else if y = c.p3.y then 1
  else
    let c3 := c.p3.y - 3 * c.p2.y + 3 * c.p1.y - c.p0.y
    let c2 := 3 * (c.p2.y - 2 * c.p1.y + c.p0.y)
    let c1 := 3 * (c.p1.y - c.p0.y)
    let c0 := c.p0.y - y
    sInf {t : ℝ | 0 ≤ t ∧ t ≤ 1 ∧ c0 + c1 * t + c2 * t ^ 2 + c3 * t ^ 3 = 0}

/-- curve/mod.rs:377-379 (`solve_x_for_y`). -/
noncomputable def solveX (c : Cubic) (y : ℝ) : ℝ := (c.eval (solveT c y)).x

/-- curve/mod.rs:385-394 (`y_subsegment`). -/
noncomputable def ySubsegment (c : Cubic) (y0 y1 : ℝ) : Cubic :=
  let t0 := solveT c y0
  let t1 := solveT c y1
  let r := c.subsegment t0 t1
  ⟨⟨r.p0.x, y0⟩, r.p1, r.p2, ⟨r.p3.x, y1⟩⟩

/-- `kurbo::Shape::bounding_box` of a cubic, horizontally (kurbo evaluates the curve at the roots of its derivative; it is taken at its
word). -/
noncomputable def Cubic.bboxMin (c : Cubic) : ℝ := sInf ((fun t => (c.eval t).x) '' Set.Icc 0 1)
noncomputable def Cubic.bboxMax (c : Cubic) : ℝ := sSup ((fun t => (c.eval t).x) '' Set.Icc 0 1)

/-! ## Segments -/

/-- geom.rs:108-125 (`Segment`). -/
inductive Seg where
  | line (p0 p1 : Pt)
  | cubic (c : Cubic)

namespace Seg

/-- geom.rs:256-260 (`start`). -/
def start : Seg → Pt
  | line p0 _ => p0
  | cubic c => c.p0

/-- geom.rs:263-268 (`end`). -/
def stop : Seg → Pt
  | line _ p1 => p1
  | cubic c => c.p3

open Classical in
/-- geom.rs:232-253 (`monotonic_cubic`, `straight`), without the `debug_assert!`. -/
noncomputable def monotonicCubic (p0 p1 p2 p3 : Pt) : Seg := if p3.y = p0.y then line p0 p3 else cubic ⟨p0, p1, p2, p3⟩

/-- geom.rs:271-288 (`to_kurbo_cubic`). -/
noncomputable def toCubic : Seg → Cubic
  | line p0 p3 => ⟨p0, ⟨p0.x + 1 / 3 * (p3.x - p0.x), p0.y + 1 / 3 * (p3.y - p0.y)⟩, ⟨p0.x + 2 / 3 * (p3.x - p0.x), p0.y + 2 / 3 * (p3.y - p0.y)⟩, p3⟩
  | cubic c => c

/-- geom.rs:385-395 (`is_horizontal`). -/
def Horizontal : Seg → Prop
  | line p0 p1 => p0.y = p1.y
  | cubic _ => False

/-- geom.rs:305-310 (`min_x`). -/
noncomputable def minX : Seg → ℝ
  | line p0 p1 => min p0.x p1.x
  | cubic c => min (min (min c.p0.x c.p1.x) c.p2.x) c.p3.x

/-- geom.rs:313-318 (`max_x`). -/
noncomputable def maxX : Seg → ℝ
  | line p0 p1 => max p0.x p1.x
  | cubic c => max (max (max c.p0.x c.p1.x) c.p2.x) c.p3.x

open Classical in
/-- geom.rs:327-345 (`at_y`), for heights in the range. -/
noncomputable def atY : Seg → ℝ → ℝ
  | line p0 p1, y =>
    if (line p0 p1).Horizontal then p1.x
    else
      let t := (y - p0.y) / (p1.y - p0.y)
      p0.x + t * (p1.x - p0.x)
  | cubic c, y => solveX c y

/-- geom.rs:347-363 (`local_bbox`), horizontally: `Rect::from_points` sorts the coordinates. -/
noncomputable def localBBox (s : Seg) (y eps : ℝ) : ℝ × ℝ :=
  let startY := max (y - eps) s.start.y
  let endY := min (y + eps) s.stop.y
  match s with
  | line _ _ =>
    let startX := s.atY startY
    let endX := s.atY endY
    (min startX endX, max startX endX)
  | cubic c =>
    let b := c.subsegment (solveT c startY) (solveT c endY)
    (b.bboxMin, b.bboxMax)

/-- geom.rs:371-373 (`lower`). -/
noncomputable def lower (s : Seg) (y eps : ℝ) : ℝ := (s.localBBox y eps).1 - eps

/-- geom.rs:380-382 (`upper`). -/
noncomputable def upper (s : Seg) (y eps : ℝ) : ℝ := (s.localBBox y eps).2 + eps

end Seg

/-! ## Quadratics -/

/-- curve/mod.rs:534-541 (`Quadratic`). -/
@[ext] structure Quadratic where
  c2 : ℝ
  c1 : ℝ
  c0 : ℝ

/-- curve/mod.rs:606-608 (`eval`). -/
def Quadratic.eval (q : Quadratic) (t : ℝ) : ℝ := q.c2 * t * t + q.c1 * t + q.c0

/-- curve/mod.rs:613-619 (`shift`). -/
def Quadratic.shift (q : Quadratic) (s : ℝ) : Quadratic := ⟨q.c2, q.c1 - 2 * q.c2 * s, q.c0 + q.c2 * s * s - q.c1 * s⟩

/-- curve/mod.rs:622-629 (`Add<f64>`). -/
def Quadratic.add (q : Quadratic) (r : ℝ) : Quadratic := ⟨q.c2, q.c1, q.c0 + r⟩

/-- `a.copysign(b)` for `a ≥ 0`; the zero of the model is positive. -/
noncomputable def copysign (a b : ℝ) : ℝ := if b < 0 then -a else a

open Classical in
/-- curve/mod.rs:462-515 (`monic_quadratic_roots`); `none` is the pair of minus infinities. The discriminant is finite in exact arithmetic. -/
noncomputable def monicRoots (b c : ℝ) : Option (ℝ × ℝ) :=
  let disc := b * b - 4 * c
  if disc ≤ 0 then none
  else
    let root1 := -(1 / 2) * (b + copysign (Real.sqrt disc) b)
    let root2 := c / root1
    if root1 < root2 then some (root1, root2) else some (root2, root1)

/-- curve/mod.rs:517-530 (`QuadraticSigns`): the roots may be infinite. -/
structure QuadraticSigns where
  smaller : EReal
  bigger : EReal
  initial : ℝ

open Classical in
/-- curve/mod.rs:543-598 (`signs`). The discriminant is finite in exact arithmetic. A division by `c2 = 0` gives an infinity whose sign
is that of the numerator, because the zero of the model is positive. -/
noncomputable def Quadratic.signs (q : Quadratic) : QuadraticSigns :=
  let disc := q.c1 * q.c1 - 4 * q.c2 * q.c0
  if disc < 0 then ⟨⊥, ⊥, q.c2⟩
  else
    let z := q.c1 + copysign (Real.sqrt disc) q.c1
    if z = 0 then ⟨⊥, ⊥, 0⟩
    else
      let root1 : EReal := ((-2 * q.c0 / z : ℝ) : EReal)
      let root2 : EReal := if q.c2 = 0 then (if 0 < -z then ⊤ else ⊥) else ((-z / (2 * q.c2) : ℝ) : EReal)
      ⟨min root1 root2, max root1 root2, if q.c2 = 0 then q.c1 else q.c2⟩

open Classical in
/-- curve/mod.rs:650-660 (the closure `push` in `push_quadratic_signs`). `none` for the end is minus infinity. -/
noncomputable def pushSign (y0 y1 : ℝ) (out : CurveOrder ℝ) (stop : Option ℝ) (o : Order) : Option (CurveOrder ℝ) :=
  match stop with
  | none => some out
  | some e =>
    if y0 < e ∧ (match out.cmps.getLast? with | none => True | some l => l.stop < y1 ∧ l.stop < e) then out.push (min e y1) o
    else some out

/-- A sequence of calls of that closure. -/
noncomputable def pushSigns (y0 y1 : ℝ) : CurveOrder ℝ → List (Option ℝ × Order) → Option (CurveOrder ℝ)
  | out, [] => some out
  | out, (e, o) :: l =>
    match pushSign y0 y1 out e o with
    | none => none
    | some out => pushSigns y0 y1 out l

open Classical in
/-- curve/mod.rs:638-714 (`push_quadratic_signs`) for `a y^2 + b y + c`. In exact arithmetic the scaled coefficients are finite unless
`a = 0`, and the roots of the linear equation are finite unless `b = 0`. The `debug_assert!`s on the order of the roots are left out (`none` is
`r ≤ r'` for every `r'` here); they are implied by the theorems. -/
noncomputable def pushQuadraticSigns (a b c lower upper y0 y1 : ℝ) (out : CurveOrder ℝ) : Option (CurveOrder ℝ) :=
  if a = 0 then
    if b = 0 then pushSign y0 y1 out (some y1) (if c < lower then .right else if upper < c then .left else .ish)
    else
      let root0 := -(c - lower) / b
      let root1 := -(c - upper) / b
      if 0 < b then pushSigns y0 y1 out [(some root0, .right), (some root1, .ish), (some y1, .left)]
      else pushSigns y0 y1 out [(some root1, .left), (some root0, .ish), (some y1, .right)]
  else
    let lo := monicRoots (b * (1 / a)) ((c - lower) * (1 / a))
    let up := monicRoots (b * (1 / a)) ((c - upper) * (1 / a))
    if 0 < a then
      pushSigns y0 y1 out [(up.map Prod.fst, .left), (lo.map Prod.fst, .ish), (lo.map Prod.snd, .right), (up.map Prod.snd, .ish), (some y1, .left)]
    else
      pushSigns y0 y1 out [(lo.map Prod.fst, .right), (up.map Prod.fst, .ish), (up.map Prod.snd, .left), (lo.map Prod.snd, .ish), (some y1, .right)]

/-! ## Extrema (`transverse.rs`) -/

open Classical in
/-- curve/transverse.rs:17-33 (`quad_max_between`). If the divisor of `critical_t` is zero then it is infinite or NaN and the comparisons
fail. -/
noncomputable def quadMaxBetween (a b c t0 t1 : ℝ) : ℝ :=
  let eval (t : ℝ) : ℝ := a * t * t + 2 * b * t * (1 - t) + c * (1 - t) * (1 - t)
  let d := a - b + (c - b)
  let crit := (c - b) / d
  let m := max (eval t0) (eval t1)
  if d ≠ 0 ∧ t0 < crit ∧ crit < t1 then max m (eval crit) else m

/-- curve/transverse.rs:35-37 (`quad_min_between`). -/
noncomputable def quadMinBetween (a b c t0 t1 : ℝ) : ℝ := -quadMaxBetween (-a) (-b) (-c) t0 t1

/-- `Vec2::hypot2`. -/
def hypot2 (v : Pt) : ℝ := v.x * v.x + v.y * v.y

open Classical in
/-- curve/transverse.rs:39-92 (`transversal_after`), without the `debug_assert!`s. -/
noncomputable def transversalAfter (l r : Cubic) (y1 : ℝ) : Bool :=
  let lt : Pt := ⟨l.p1.x - l.p0.x, l.p1.y - l.p0.y⟩
  let rt : Pt := ⟨r.p1.x - r.p0.x, r.p1.y - r.p0.y⟩
  let cross := lt.x * rt.y - lt.y * rt.x
  if hypot2 lt < 1 / 10 ^ 20 ∨ hypot2 rt < 1 / 10 ^ 20 then false
  else if 0 < lt.x * rt.x + lt.y * rt.y ∧ cross * cross < 1 / 10 ^ 2 * hypot2 lt * hypot2 rt then false
  else
    let tl := solveT l y1
    let (l0, l1, l2) := l.deriv
    let lmax := quadMaxBetween l2.x l1.x l0.x 0 tl
    let tr := solveT r y1
    let (r0, r1, r2) := r.deriv
    let rmin := quadMinBetween r2.x r1.x r0.x 0 tr
    if lmax < 0 ∧ 0 < rmin then true
    else
      let ldy := if lmax < 0 then quadMaxBetween l2.y l1.y l0.y 0 tl else quadMinBetween l2.y l1.y l0.y 0 tl
      let rdy := if rmin < 0 then quadMinBetween r2.y r1.y r0.y 0 tr else quadMaxBetween r2.y r1.y r0.y 0 tr
      decide (lmax * rdy < rmin * ldy)

/-- curve/transverse.rs:94-104: reflection in `y`. -/
def Pt.refl (p : Pt) : Pt := ⟨p.x, -p.y⟩

/-- curve/transverse.rs:97-102. -/
def Cubic.refl (c : Cubic) : Cubic := ⟨c.p3.refl, c.p2.refl, c.p1.refl, c.p0.refl⟩

/-- curve/transverse.rs:94-104 (`transversal_before`). -/
noncomputable def transversalBefore (l r : Cubic) (y0 : ℝ) : Bool := transversalAfter l.refl r.refl (-y0)

/-! ## Approximating parabolas -/

/-- curve/mod.rs:742-771 (`EstParab`): `x` is about `c0 + c1 y + c2 y^2`, with an error between `dmin` and `dmax`. -/
structure EstParab where
  c0 : ℝ
  c1 : ℝ
  c2 : ℝ
  dmin : ℝ
  dmax : ℝ

/-- curve/mod.rs:857-861 (`eval`). -/
def EstParab.eval (p : EstParab) (y : ℝ) : ℝ := p.c0 + p.c1 * y + p.c2 * y * y

/-- curve/mod.rs:870-882 (`Sub for EstParab`). -/
def EstParab.sub (p q : EstParab) : EstParab := ⟨p.c0 - q.c0, p.c1 - q.c1, p.c2 - q.c2, p.dmin - q.dmax, p.dmax - q.dmin⟩

end Verif.Geom
