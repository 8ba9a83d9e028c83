import Verif.Geom.Signs
import Verif.Geom.Extrema
import Verif.Geom.Segment

/-! # Geometry: claims C41-C45, C63, C64 -/

namespace Verif.Geom
open Verif.Curve

/-! ## C41: the sweep order on points -/

section
variable {K : Type} [LinearOrder K]

/-- A point whose coordinates are numbers. -/
def pnt (x y : K) : FPoint K := ⟨.num y, .num x⟩

theorem cheapCmp_num (a b : K) : cheapCmp (.num a) (.num b) = if a < b then .lt else if b < a then .gt else .eq := by
  simp [cheapCmp, Flt.lt]

/-- **C41.** Points are compared by height first, and by horizontal position at equal heights. -/
theorem C41_lex (x y x' y' : K) :
    ((pnt x y).cmp (pnt x' y') = .lt ↔ y < y' ∨ (y = y' ∧ x < x')) ∧
    ((pnt x y).cmp (pnt x' y') = .gt ↔ y' < y ∨ (y = y' ∧ x' < x)) ∧
    ((pnt x y).cmp (pnt x' y') = .eq ↔ y = y' ∧ x = x') := by
  simp only [pnt, FPoint.cmp, cheapCmp_num]
  rcases lt_trichotomy y y' with h | h | h
  · simp [h, h.not_gt, h.ne, Ordering.then]
  · subst h
    rcases lt_trichotomy x x' with g | g | g
    · simp [g, g.not_gt, g.ne, Ordering.then]
    · subst g; simp [Ordering.then]
    · simp [g, g.not_gt, g.ne', Ordering.then]
  · simp [h, h.not_gt, h.ne', Ordering.then]

/-- **C41.** The comparison of points that are numbers is a strict total order: exactly one of the three answers holds, swapping the points
swaps the answer, equal means the same point, and "less" is transitive. -/
theorem C41_total (p q r : K × K) :
    ((pnt p.1 p.2).cmp (pnt q.1 q.2) = ((pnt q.1 q.2).cmp (pnt p.1 p.2)).swap) ∧
    ((pnt p.1 p.2).cmp (pnt p.1 p.2) = .eq) ∧
    ((pnt p.1 p.2).cmp (pnt q.1 q.2) = .eq → p = q) ∧
    ((pnt p.1 p.2).cmp (pnt q.1 q.2) ≠ .gt → (pnt q.1 q.2).cmp (pnt r.1 r.2) ≠ .gt → (pnt p.1 p.2).cmp (pnt r.1 r.2) ≠ .gt) := by
  obtain ⟨x, y⟩ := p
  obtain ⟨x', y'⟩ := q
  obtain ⟨x'', y''⟩ := r
  refine ⟨?_, ((C41_lex x y x y).2.2).2 ⟨rfl, rfl⟩, fun h => ?_, ?_⟩
  · rcases h : (pnt x' y').cmp (pnt x y) with _ | _ | _
    · rw [C41_lex _ _ _ _ |>.1] at h
      exact (C41_lex _ _ _ _).2.1.2 (h.imp id fun h => ⟨h.1.symm, h.2⟩)
    · rw [C41_lex _ _ _ _ |>.2.2] at h
      exact (C41_lex _ _ _ _).2.2.2 ⟨h.1.symm, h.2.symm⟩
    · rw [C41_lex _ _ _ _ |>.2.1] at h
      exact (C41_lex _ _ _ _).1.2 (h.imp id fun h => ⟨h.1.symm, h.2⟩)
  · have := (C41_lex x y x' y').2.2.1 h
    exact Prod.ext this.2 this.1
  · dsimp only
    rw [ne_eq, ne_eq, ne_eq, (C41_lex x y x' y').2.1, (C41_lex x' y' x'' y'').2.1, (C41_lex x y x'' y'').2.1]
    intro h1 h2 h3
    rw [not_or, not_lt, not_and, not_lt] at h1 h2
    rcases h3 with h3 | ⟨h3, h4⟩
    · exact absurd h3 (not_lt.2 (h1.1.trans h2.1))
    · subst h3
      have e : y = y' := le_antisymm h1.1 h2.1
      subst e
      exact absurd h4 (not_lt.2 ((h1.2 rfl).trans (h2.2 rfl)))

/-- **C41.** Moving two points by the same amount does not change their order. -/
theorem C41_translate [AddCommGroup K] [IsOrderedAddMonoid K] (x y x' y' dx dy : K) :
    (pnt (x + dx) (y + dy)).cmp (pnt (x' + dx) (y' + dy)) = (pnt x y).cmp (pnt x' y') := by
  simp only [pnt, FPoint.cmp, cheapCmp_num, add_lt_add_iff_right]

/-- Non-vacuity: the higher point comes first although it is further right. -/
example : (pnt (5 : ℤ) 1).cmp (pnt 0 2) = .lt := by decide

/-- **C41 (why NaN is excluded).** With a NaN coordinate the comparison is not transitive: `1 = NaN` and `NaN = 0`, but `1 > 0`. -/
theorem C41_nan_not_transitive : ∃ p q r : FPoint ℤ, p.cmp q = .eq ∧ q.cmp r = .eq ∧ p.cmp r = .gt :=
  ⟨⟨.num 0, .num 1⟩, ⟨.num 0, .nan⟩, ⟨.num 0, .num 0⟩, by decide, by decide, by decide⟩
end

/-! ## C42: segments -/

/-- **C42.** The horizontal position at a height in the range of a segment is that of its only point there; it lies between the crude
bounds, and it is the end point's at the ends. -/
theorem C42_at_y (s : Seg) (h : s.Down) (y : ℝ) (h0 : s.start.y ≤ y) (h1 : y ≤ s.stop.y) :
    (∀ x, s.On ⟨x, y⟩ ↔ x = s.atY y) ∧ s.minX ≤ s.atY y ∧ s.atY y ≤ s.maxX := by
  have h2 := (s.on_iff h y (s.atY y) h0 h1).2 rfl
  exact ⟨fun x => s.on_iff h y x h0 h1, s.on_x _ h2⟩

theorem C42_ends (s : Seg) (h : s.Down) : s.atY s.start.y = s.start.x ∧ s.atY s.stop.y = s.stop.x := by
  have hle : s.start.y ≤ s.stop.y := by
    cases s with
    | line p0 p1 => exact h.le
    | cubic c => exact h.1.le
  constructor
  · refine ((s.on_iff h _ s.start.x le_rfl hle).1 ?_).symm
    cases s with
    | line p0 p1 => exact ⟨0, le_rfl, zero_le_one, by ext <;> simp [Seg.start, Pt.affine]⟩
    | cubic c => exact ⟨0, le_rfl, zero_le_one, by rw [c.eval_zero]; rfl⟩
  · refine ((s.on_iff h _ s.stop.x hle le_rfl).1 ?_).symm
    cases s with
    | line p0 p1 => exact ⟨1, zero_le_one, le_rfl, by ext <;> simp [Seg.stop, Pt.affine]⟩
    | cubic c => exact ⟨1, zero_le_one, le_rfl, by rw [c.eval_one]; rfl⟩

/-- **C42.** A line is monotone: going down, the position moves towards the side of the end point. -/
theorem C42_line_monotone (p0 p1 : Pt) (h : p0.y < p1.y) (y y' : ℝ) (hyy : y ≤ y') :
    (p0.x ≤ p1.x → (Seg.line p0 p1).atY y ≤ (Seg.line p0 p1).atY y') ∧ (p1.x ≤ p0.x → (Seg.line p0 p1).atY y' ≤ (Seg.line p0 p1).atY y) := by
  rw [Seg.atY_line h, Seg.atY_line h]
  have hd : 0 < p1.y - p0.y := by linarith
  have hle : (y - p0.y) / (p1.y - p0.y) ≤ (y' - p0.y) / (p1.y - p0.y) := by gcongr
  constructor
  · intro hx
    have := mul_le_mul_of_nonneg_right hle (sub_nonneg.2 hx)
    linarith
  · intro hx
    have := mul_le_mul_of_nonpos_right hle (sub_nonpos.2 hx)
    linarith

/-- **C42.** `lower` and `upper` are the exact ends, at a height, of the segment thickened by the square of side `2 eps`: no point of the
thickened segment is outside, and both are attained. -/
theorem C42_lower_upper (s : Seg) (h : s.Down) (y eps : ℝ) (he : 0 ≤ eps) (h0 : s.start.y ≤ y + eps) (h1 : y - eps ≤ s.stop.y) :
    IsLeast (s.Near y eps) (s.lower y eps) ∧ IsGreatest (s.Near y eps) (s.upper y eps) :=
  s.lower_least h y eps he h0 h1

/-- **C42.** In particular the position at every height within `eps` is at least `eps` away from both. -/
theorem C42_bracket (s : Seg) (h : s.Down) (y eps y' : ℝ) (he : 0 ≤ eps) (hy : |y' - y| ≤ eps) (h0 : s.start.y ≤ y') (h1 : y' ≤ s.stop.y) :
    s.lower y eps + eps ≤ s.atY y' ∧ s.atY y' + eps ≤ s.upper y eps := by
  have hy' := abs_le.1 hy
  obtain ⟨⟨_, a⟩, ⟨_, b⟩⟩ := C42_lower_upper s h y eps he (by linarith) (by linarith)
  have hon := (s.on_iff h y' _ h0 h1).2 rfl
  have ha := a ⟨_, hon, hy, show |s.atY y' - eps - s.atY y'| ≤ eps by rw [sub_sub_cancel_left, abs_neg, abs_of_nonneg he]⟩
  have hb := b ⟨_, hon, hy, show |s.atY y' + eps - s.atY y'| ≤ eps by rw [add_sub_cancel_left, abs_of_nonneg he]⟩
  constructor <;> linarith

/-- **C42 (why horizontal segments are excluded).** For a horizontal segment `lower` is not a lower bound: its own start is further left. -/
theorem C42_horizontal_lower : ∃ (s : Seg) (y eps : ℝ), 0 < eps ∧ s.start.y = y ∧ s.stop.y = y ∧ s.On s.start ∧ s.start.x < s.lower y eps := by
  refine ⟨.line ⟨0, 0⟩ ⟨10, 0⟩, 0, 1, one_pos, rfl, rfl, ⟨0, le_rfl, zero_le_one, by ext <;> simp [Seg.start, Pt.affine]⟩, ?_⟩
  simp only [Seg.start, Seg.lower, Seg.localBBox, Seg.atY, Seg.Horizontal, if_true, min_self]
  norm_num

/-- **C42.** Seen as a cubic, a segment has the same points and the same ends. -/
theorem C42_to_cubic (s : Seg) : (∀ p, (Seg.cubic s.toCubic).On p ↔ s.On p) ∧ s.toCubic.p0 = s.start ∧ s.toCubic.p3 = s.stop := by
  cases s with
  | cubic c => exact ⟨fun _ => Iff.rfl, rfl, rfl⟩
  | line p0 p3 =>
    refine ⟨fun p => ?_, rfl, rfl⟩
    have e : ∀ t, ((Seg.line p0 p3).toCubic).eval t = p0.affine p3 t := fun t => by
      ext <;> simp only [Seg.toCubic, Cubic.eval, bez3, Pt.affine] <;> ring
    constructor
    · rintro ⟨t, h0, h1, h⟩; exact ⟨t, h0, h1, h.trans (e t)⟩
    · rintro ⟨t, h0, h1, h⟩; exact ⟨t, h0, h1, h.trans (e t).symm⟩

/-- **C42.** A segment made from the control points of a curve that goes down has the points of the curve; one made from a curve that ends at the
height of its start is the horizontal line between its ends. -/
theorem C42_monotonic_cubic (p0 p1 p2 p3 : Pt) :
    (p0.y < p3.y → ∀ p, (Seg.monotonicCubic p0 p1 p2 p3).On p ↔ ∃ t, 0 ≤ t ∧ t ≤ 1 ∧ p = (⟨p0, p1, p2, p3⟩ : Cubic).eval t) ∧
    (p0.y = p3.y → (Seg.monotonicCubic p0 p1 p2 p3).Horizontal) ∧
    (Seg.monotonicCubic p0 p1 p2 p3).start = p0 ∧ (Seg.monotonicCubic p0 p1 p2 p3).stop = p3 := by
  refine ⟨fun h p => ?_, fun h => ?_, ?_, ?_⟩
  · rw [Seg.monotonicCubic, if_neg h.ne']; rfl
  · rw [Seg.monotonicCubic, if_pos h.symm]; exact h
  · rw [Seg.monotonicCubic]; split <;> rfl
  · rw [Seg.monotonicCubic]; split <;> rfl

/-- Non-vacuity of C42: a line and a curved segment that go down. -/
example : (Seg.line ⟨0, 0⟩ ⟨4, 2⟩).Down := by show (0 : ℝ) < 2; norm_num

/-- An S-shaped curve that goes down. -/
def sCurve : Cubic := ⟨⟨0, 0⟩, ⟨3, 1⟩, ⟨-3, 2⟩, ⟨0, 3⟩⟩

theorem sCurve_mono : sCurve.Mono := by
  refine ⟨by show (0 : ℝ) < 3; norm_num, fun t h0 h1 => ?_⟩
  simp only [sCurve, Cubic.derivAt, Cubic.deriv, bez2]
  nlinarith

example : (Seg.cubic sCurve).Down ∧ (Seg.cubic sCurve).atY 1 = 4 / 3 * (1 / 2) := by
  refine ⟨sCurve_mono, ?_⟩
  refine ((Seg.on_iff (.cubic sCurve) sCurve_mono 1 _ (by show (0 : ℝ) ≤ 1; norm_num) (by show (1 : ℝ) ≤ 3; norm_num)).1 ⟨1 / 3, by norm_num, by norm_num, ?_⟩).symm
  ext <;> simp only [sCurve, Cubic.eval, bez3] <;> norm_num

/-! ## C43: sign classification of a quadratic -/

/-- **C43.** Classifying `a y² + b y + c` between `y0` and `y1` against thresholds `lower < upper` never fails, the pieces tile the interval
up to `y1`, and each piece is right: where it says left the quadratic is at least `upper`, where it says right at most `lower`, and otherwise
it is between the two. -/
theorem C43_push_quadratic_signs (a b c lower upper y0 y1 start : ℝ) (hlu : lower < upper) (hs : start ≤ y0) (hy : y0 < y1) :
    ∃ out, pushQuadraticSigns a b c lower upper y0 y1 (CurveOrder.new start) = some out ∧ out.start = start ∧ WF out ∧ Curve.EndsAt out y1 ∧
      ∀ p ∈ out.iter, ∀ t, y0 ≤ t → p.lo ≤ t → t ≤ p.hi →
        (p.order = .left → upper ≤ a * t ^ 2 + b * t + c) ∧ (p.order = .right → a * t ^ 2 + b * t + c ≤ lower) ∧
        (p.order = .ish → lower ≤ a * t ^ 2 + b * t + c ∧ a * t ^ 2 + b * t + c ≤ upper) := by
  obtain ⟨out, h1, h2, h3, h4, h5⟩ := pushQuadraticSigns_ok a b c lower upper y0 y1 start hlu hs hy
  refine ⟨out, h1, h2, h3, h4, fun p hp t ht hl hh => ?_⟩
  have := h5 p hp t ht hl hh
  rw [show a * t ^ 2 + b * t + c = a * t * t + b * t + c by ring]
  refine ⟨fun e => ?_, fun e => ?_, fun e => ?_⟩ <;> rw [e] at this <;> exact this

/-- Every height between `y0` and `y1` strictly outside the thresholds is classified by that side: the converse reading of C43. -/
theorem C43_complete (a b c lower upper y0 y1 start : ℝ) (hlu : lower < upper) (hs : start ≤ y0) (hy : y0 < y1) :
    ∃ out, pushQuadraticSigns a b c lower upper y0 y1 (CurveOrder.new start) = some out ∧
      ∀ t, y0 ≤ t → t ≤ y1 → ∃ p ∈ out.iter, p.lo ≤ t ∧ t ≤ p.hi ∧
        (upper < a * t ^ 2 + b * t + c → p.order = .left) ∧ (a * t ^ 2 + b * t + c < lower → p.order = .right) ∧
        (lower < a * t ^ 2 + b * t + c → a * t ^ 2 + b * t + c < upper → p.order = .ish) := by
  obtain ⟨out, h1, h2, h3, h4, h5⟩ := C43_push_quadratic_signs a b c lower upper y0 y1 start hlu hs hy
  refine ⟨out, h1, fun t ht0 ht1 => ?_⟩
  obtain ⟨p, hp, hl, hh⟩ := wf_cover h3 h4 (h2 ▸ hs.trans ht0) ht1
  refine ⟨p, hp, hl, hh, ?_⟩
  obtain ⟨g1, g2, g3⟩ := h5 p hp t ht0 hl hh
  rcases ho : p.order with _ | _ | _
  · have := g2 ho
    exact ⟨fun h => by linarith, fun _ => rfl, fun h => by linarith⟩
  · have := g3 ho
    exact ⟨fun h => by linarith [this.2], fun h => by linarith [this.1], fun _ _ => rfl⟩
  · have := g1 ho
    exact ⟨fun _ => rfl, fun h => by linarith, fun _ h => by linarith⟩

/-- **C43.** Shifting a quadratic sideways by `s` gives the function `t ↦ q (t - s)`; adding a number adds it everywhere. -/
theorem C43_shift (q : Quadratic) (s r t : ℝ) : (q.shift s).eval t = q.eval (t - s) ∧ (q.add r).eval t = q.eval t + r := by
  constructor
  · simp only [Quadratic.shift, Quadratic.eval]; ring
  · simp only [Quadratic.add, Quadratic.eval]; ring

/-- Non-vacuity of C43: a parabola that dips below both thresholds is left, ish, right, ish, left. -/
example : ∃ out, pushQuadraticSigns 1 0 (-4) (-1) 1 (-3) 3 (CurveOrder.new (-3)) = some out ∧
    (∃ p ∈ out.iter, p.lo ≤ 0 ∧ 0 ≤ p.hi ∧ p.order = .right) ∧ (∃ p ∈ out.iter, p.lo ≤ 3 ∧ 3 ≤ p.hi ∧ p.order = .left) := by
  obtain ⟨out, h, g⟩ := C43_complete 1 0 (-4) (-1) 1 (-3) 3 (-3) (by norm_num) le_rfl (by norm_num)
  refine ⟨out, h, ?_, ?_⟩
  · obtain ⟨p, hp, a, b, c⟩ := g 0 (by norm_num) (by norm_num)
    exact ⟨p, hp, a, b, c.2.1 (by norm_num)⟩
  · obtain ⟨p, hp, a, b, c⟩ := g 3 (by norm_num) (by norm_num)
    exact ⟨p, hp, a, b, c.1 (by norm_num)⟩

/-! ## C63: `Quadratic::signs` -/

/-- What the documentation of `QuadraticSigns` promises: the reported sign before the smaller root and after the bigger, the opposite
sign between them; and if the reported sign is zero, zero everywhere. -/
def SignsRight (q : Quadratic) (s : QuadraticSigns) : Prop :=
  (s.initial = 0 → ∀ t, q.eval t = 0) ∧
  (s.initial ≠ 0 → ∀ t : ℝ, ((t : EReal) < s.smaller ∨ s.bigger < (t : EReal) → 0 < s.initial * q.eval t) ∧
    (s.smaller < (t : EReal) → (t : EReal) < s.bigger → s.initial * q.eval t < 0))

/-- **C63 (partial).** The promise holds for a proper quadratic unless it is `c2 (t - 0)²`, and for increasing linear functions. Missing:
the cases of the counterexamples below, in which the code is wrong. -/
theorem C63_signs_partial (q : Quadratic) (h : (q.c2 ≠ 0 ∧ (q.c1 ≠ 0 ∨ q.c0 ≠ 0)) ∨ (q.c2 = 0 ∧ 0 < q.c1)) : SignsRight q q.signs := by
  obtain ⟨c2, c1, c0⟩ := q
  dsimp only at h
  rcases h with ⟨h2, h01⟩ | ⟨h2, h1⟩
  · by_cases hd : c1 * c1 - 4 * c2 * c0 < 0
    · simp only [SignsRight, Quadratic.signs, hd, if_true]
      refine ⟨fun h => absurd h h2, fun _ t => ⟨fun _ => ?_, fun _ h => absurd h not_lt_bot⟩⟩
      simp only [Quadratic.eval]
      nlinarith [sq_nonneg (2 * c2 * t + c1)]
    · obtain ⟨w, hw⟩ : ∃ w, w = Real.sqrt (c1 * c1 - 4 * c2 * c0) := ⟨_, rfl⟩
      have hw0 : 0 ≤ w := hw ▸ Real.sqrt_nonneg _
      have hww : w * w = c1 * c1 - 4 * c2 * c0 := by rw [hw]; exact Real.mul_self_sqrt (not_lt.1 hd)
      obtain ⟨z, hz⟩ : ∃ z, z = c1 + copysign w c1 := ⟨_, rfl⟩
      have hzq : z * z = 2 * c1 * z - 4 * c2 * c0 := by
        rw [hz]; unfold copysign; split <;> nlinarith
      have hz0 : z ≠ 0 := by
        intro h0
        rw [h0] at hz
        have : c1 = 0 := by
          unfold copysign at hz; split at hz <;> linarith
        rw [h0] at hzq
        have hc : c2 * c0 = 0 := by nlinarith
        rcases mul_eq_zero.1 hc with h | h
        · exact h2 h
        · exact h01.elim (fun g => g this) (fun g => g h)
      simp only [SignsRight, Quadratic.signs, hd, ← hw, ← hz, hz0, h2, if_false]
      refine ⟨fun h => h.elim, fun _ t => ?_⟩
      obtain ⟨r, hr⟩ : ∃ r, r = -2 * c0 / z := ⟨_, rfl⟩
      obtain ⟨s, hs⟩ : ∃ s, s = -z / (2 * c2) := ⟨_, rfl⟩
      have hf : Quadratic.eval ⟨c2, c1, c0⟩ t = c2 * ((t - r) * (t - s)) := by
        simp only [Quadratic.eval]
        have e1 : c2 * s = -z / 2 := by rw [hs]; field_simp
        have e2 : z * r = -2 * c0 := by rw [hr]; field_simp
        have e3 : c2 * (r * s) = c0 := by linear_combination r * e1 - (1 / 2) * e2
        have e4 : c2 * (r + s) = -c1 := by
          have : z * (c2 * (r + s) + c1) = 0 := by linear_combination c2 * e2 + z * e1 - (1 / 2) * hzq
          rcases mul_eq_zero.1 this with h | h
          · exact absurd h hz0
          · linarith
        linear_combination t * e4 - e3
      rw [← hr, ← hs, hf]
      rw [show min (r : EReal) s = ((min r s : ℝ) : EReal) from (EReal.coe_strictMono.monotone.map_min).symm,
        show max (r : EReal) s = ((max r s : ℝ) : EReal) from (EReal.coe_strictMono.monotone.map_max).symm, EReal.coe_lt_coe_iff, EReal.coe_lt_coe_iff, EReal.coe_lt_coe_iff, EReal.coe_lt_coe_iff]
      have hsq : 0 < c2 * c2 := mul_self_pos.2 h2
      rw [lt_min_iff, max_lt_iff, min_lt_iff, lt_max_iff]
      constructor
      · intro h
        have : 0 < (t - r) * (t - s) := by
          rcases h with h | h
          · exact mul_pos_of_neg_of_neg (by linarith) (by linarith)
          · exact mul_pos (by linarith) (by linarith)
        nlinarith [mul_pos hsq this]
      · intro h h'
        have : (t - r) * (t - s) < 0 := by
          rcases le_total r s with hrs | hrs
          · exact mul_neg_of_pos_of_neg (by rcases h with h | h <;> linarith) (by rcases h' with h | h <;> linarith)
          · exact mul_neg_of_neg_of_pos (by rcases h' with h | h <;> linarith) (by rcases h with h | h <;> linarith)
        nlinarith [mul_neg_of_pos_of_neg hsq this]
  · subst h2
    have hd : ¬ c1 * c1 - 4 * 0 * c0 < 0 := by nlinarith
    have hw : Real.sqrt (c1 * c1 - 4 * 0 * c0) = c1 := by
      rw [show c1 * c1 - 4 * 0 * c0 = c1 * c1 by ring]; exact Real.sqrt_mul_self h1.le
    have hz : c1 + copysign c1 c1 = 2 * c1 := by
      unfold copysign; rw [if_neg (not_lt.2 h1.le)]; ring
    have hz0 : ¬ 2 * c1 = 0 := by linarith
    have hn : ¬ 0 < -(2 * c1) := by linarith
    simp only [SignsRight, Quadratic.signs, hd, hw, hz, hz0, if_false, if_true, hn, min_bot_right, max_bot_right, not_lt_bot, false_or, bot_lt_iff_ne_bot]
    refine ⟨fun h => absurd h h1.ne', fun _ t => ?_⟩
    have he : Quadratic.eval ⟨0, c1, c0⟩ t = c1 * (t - -2 * c0 / (2 * c1)) := by
      simp only [Quadratic.eval]; field_simp; ring
    rw [he, EReal.coe_lt_coe_iff, EReal.coe_lt_coe_iff]
    constructor
    · intro h
      exact mul_pos h1 (mul_pos h1 (by linarith))
    · intro _ h
      exact mul_neg_of_pos_of_neg h1 (mul_neg_of_pos_of_neg h1 (by linarith))

/-- **C63 (finding).** The promise fails for decreasing linear functions (the sign reported before the root is that of the slope), for
`t²` and for constants (both are reported as zero everywhere). -/
theorem C63_signs_wrong : ¬ SignsRight ⟨0, -1, 0⟩ (Quadratic.signs ⟨0, -1, 0⟩) ∧ ¬ SignsRight ⟨1, 0, 0⟩ (Quadratic.signs ⟨1, 0, 0⟩) ∧
    ¬ SignsRight ⟨0, 0, 5⟩ (Quadratic.signs ⟨0, 0, 5⟩) := by
  have hs1 : Real.sqrt 1 = 1 := Real.sqrt_one
  have hs0 : Real.sqrt 0 = 0 := Real.sqrt_zero
  refine ⟨?_, ?_, ?_⟩
  · have : Quadratic.signs ⟨0, -1, 0⟩ = ⟨0, ⊤, -1⟩ := by
      simp only [Quadratic.signs]
      norm_num [copysign]
    rw [this]
    rintro ⟨_, h⟩
    have := (h (by norm_num) (-1)).1 (.inl (by norm_num))
    simp only [Quadratic.eval] at this
    norm_num at this
  · have : Quadratic.signs ⟨1, 0, 0⟩ = ⟨⊥, ⊥, 0⟩ := by
      simp only [Quadratic.signs]
      norm_num [copysign]
    rw [this]
    rintro ⟨h, _⟩
    have := h rfl 1
    simp only [Quadratic.eval] at this
    norm_num at this
  · have : Quadratic.signs ⟨0, 0, 5⟩ = ⟨⊥, ⊥, 0⟩ := by
      simp only [Quadratic.signs]
      norm_num [copysign]
    rw [this]
    rintro ⟨h, _⟩
    have := h rfl 1
    simp only [Quadratic.eval] at this
    norm_num at this

/-- Non-vacuity of C63: `t² - 1`. -/
example : SignsRight ⟨1, 0, -1⟩ (Quadratic.signs ⟨1, 0, -1⟩) := C63_signs_partial _ (.inl ⟨one_ne_zero, .inr (by norm_num)⟩)

/-! ## C44: extremum of a quadratic -/

/-- **C44.** The reported maximum of `a t² + 2 b t (1 - t) + c (1 - t)²` on an interval is its greatest value there, and the reported
minimum the least. -/
theorem C44_max_min (a b c t0 t1 : ℝ) (h : t0 ≤ t1) :
    IsGreatest ((fun t => a * t ^ 2 + 2 * b * t * (1 - t) + c * (1 - t) ^ 2) '' Set.Icc t0 t1) (quadMaxBetween a b c t0 t1) ∧
    IsLeast ((fun t => a * t ^ 2 + 2 * b * t * (1 - t) + c * (1 - t) ^ 2) '' Set.Icc t0 t1) (quadMinBetween a b c t0 t1) := by
  have e : ∀ t, a * t ^ 2 + 2 * b * t * (1 - t) + c * (1 - t) ^ 2 = a * t * t + 2 * b * t * (1 - t) + c * (1 - t) * (1 - t) := fun t => by ring
  obtain ⟨u, u0, u1, hu⟩ := quadMax_attained a b c t0 t1 h
  obtain ⟨v, v0, v1, hv⟩ := quadMin_attained a b c t0 t1 h
  refine ⟨⟨⟨u, ⟨u0, u1⟩, ?_⟩, ?_⟩, ⟨v, ⟨v0, v1⟩, ?_⟩, ?_⟩
  · rw [hu]; exact e u
  · rintro _ ⟨t, ⟨h0, h1⟩, rfl⟩; dsimp only; rw [e]; exact quadMax_bound a b c t0 t1 t h0 h1
  · rw [hv]; exact e v
  · rintro _ ⟨t, ⟨h0, h1⟩, rfl⟩; dsimp only; rw [e]; exact quadMin_bound a b c t0 t1 t h0 h1

/-- Non-vacuity of C44: `t (1 - t)` on `[0, 1]` has its maximum inside. -/
example : quadMaxBetween 0 (1 / 2) 0 0 1 = 1 / 4 := by
  refine (C44_max_min 0 (1 / 2) 0 0 1 zero_le_one).1.unique ⟨⟨1 / 2, ⟨by norm_num, by norm_num⟩, by norm_num⟩, ?_⟩
  rintro _ ⟨t, _, rfl⟩
  dsimp only
  nlinarith [sq_nonneg (t - 1 / 2)]

/-! ## C64: transversality -/

/-- **C64.** If the test after a common height says yes for two descending curves, the left one starting on the left or at the same point, then
at every height from there down to `y1` the left curve is strictly to the left of the right one. -/
theorem C64_transversal_after (l r : Cubic) (y1 : ℝ) (hl : l.Mono) (hr : r.Mono) (hy : l.p0.y = r.p0.y) (hx : l.p0.x ≤ r.p0.x) (h01 : l.p0.y < y1)
    (hl1 : y1 ≤ l.p3.y) (hr1 : y1 ≤ r.p3.y) (ht : transversalAfter l r y1 = true) (xl xr y : ℝ) (hl2 : (Seg.cubic l).On ⟨xl, y⟩)
    (hr2 : (Seg.cubic r).On ⟨xr, y⟩) (h0 : l.p0.y < y) (h1 : y ≤ y1) : xl < xr := by
  obtain ⟨s, s0, s1, es⟩ := hl2
  obtain ⟨t, t0, t1, et⟩ := hr2
  have e1 : (l.eval s).y = y := by rw [← es]
  have e2 : (r.eval t).y = y := by rw [← et]
  have := transversal_sound hl hr hy hx h01 hl1 hr1 ht s0 s1 t0 t1 (e1.trans e2.symm) (e1 ▸ h0) (e1 ▸ h1)
  rw [← es, ← et] at this
  exact this

theorem Cubic.refl_eval (c : Cubic) (t : ℝ) : c.refl.eval t = (c.eval (1 - t)).refl := by
  ext <;> simp only [Cubic.refl, Pt.refl, Cubic.eval, bez3] <;> ring

theorem Cubic.Mono.refl {c : Cubic} (h : c.Mono) : c.refl.Mono := by
  refine ⟨by simp only [Cubic.refl, Pt.refl]; linarith [h.1], fun t h0 h1 => ?_⟩
  have := h.2 (1 - t) (by linarith) (by linarith)
  simp only [Cubic.refl, Pt.refl, Cubic.derivAt, Cubic.deriv, bez2] at this ⊢
  linarith

/-- **C64.** The same for the test before a common height. -/
theorem C64_transversal_before (l r : Cubic) (y0 : ℝ) (hl : l.Mono) (hr : r.Mono) (hy : l.p3.y = r.p3.y) (hx : l.p3.x ≤ r.p3.x) (h01 : y0 < l.p3.y)
    (hl1 : l.p0.y ≤ y0) (hr1 : r.p0.y ≤ y0) (ht : transversalBefore l r y0 = true) (xl xr y : ℝ) (hl2 : (Seg.cubic l).On ⟨xl, y⟩)
    (hr2 : (Seg.cubic r).On ⟨xr, y⟩) (h0 : y0 ≤ y) (h1 : y < l.p3.y) : xl < xr := by
  refine C64_transversal_after l.refl r.refl (-y0) hl.refl hr.refl ?_ hx ?_ ?_ ?_ ht xl xr (-y) ?_ ?_ ?_ ?_
  · simp only [Cubic.refl, Pt.refl]; rw [hy]
  · simp only [Cubic.refl, Pt.refl]; linarith
  · simp only [Cubic.refl, Pt.refl]; linarith
  · simp only [Cubic.refl, Pt.refl]; linarith
  · obtain ⟨s, s0, s1, es⟩ := hl2
    exact ⟨1 - s, by linarith, by linarith, by rw [Cubic.refl_eval, sub_sub_cancel, ← es]; rfl⟩
  · obtain ⟨s, s0, s1, es⟩ := hr2
    exact ⟨1 - s, by linarith, by linarith, by rw [Cubic.refl_eval, sub_sub_cancel, ← es]; rfl⟩
  · simp only [Cubic.refl, Pt.refl]; linarith
  · linarith

theorem quadMax_const (a t0 t1 : ℝ) : quadMaxBetween a a a t0 t1 = a := by
  simp [quadMaxBetween]
  ring_nf
  simp

/-- Non-vacuity of C64: two curves (straight ones, for simplicity) that leave a common point in different directions. -/
example : (⟨⟨0, 0⟩, ⟨-1, 1⟩, ⟨-2, 2⟩, ⟨-3, 3⟩⟩ : Cubic).Mono ∧ (⟨⟨0, 0⟩, ⟨1, 1⟩, ⟨2, 2⟩, ⟨3, 3⟩⟩ : Cubic).Mono ∧
    transversalAfter ⟨⟨0, 0⟩, ⟨-1, 1⟩, ⟨-2, 2⟩, ⟨-3, 3⟩⟩ ⟨⟨0, 0⟩, ⟨1, 1⟩, ⟨2, 2⟩, ⟨3, 3⟩⟩ 3 = true := by
  refine ⟨⟨by norm_num, fun t h0 h1 => ?_⟩, ⟨by norm_num, fun t h0 h1 => ?_⟩, ?_⟩
  · simp only [Cubic.derivAt, Cubic.deriv, bez2]; nlinarith
  · simp only [Cubic.derivAt, Cubic.deriv, bez2]; nlinarith
  · unfold transversalAfter
    dsimp only
    split
    · rename_i h; norm_num [hypot2] at h
    split
    · rename_i h; norm_num [hypot2] at h
    split
    · rfl
    · rename_i h
      exfalso
      apply h
      simp only [Cubic.deriv, quadMinBetween]
      rw [show (3 : ℝ) * (-3 - -2) = -3 by norm_num, show (3 : ℝ) * (-2 - -1) = -3 by norm_num, show (3 : ℝ) * (-1 - 0) = -3 by norm_num,
        show (3 : ℝ) * (3 - 2) = 3 by norm_num, show (3 : ℝ) * (2 - 1) = 3 by norm_num, show (3 : ℝ) * (1 - 0) = 3 by norm_num]
      rw [quadMax_const, quadMax_const]
      norm_num

/-! ## C45: approximating parabolas -/

/-- The error bounds of an estimate hold for the function `f` at the heights in `D`. -/
def EstParab.Valid (p : EstParab) (f : ℝ → ℝ) (D : Set ℝ) : Prop := ∀ y ∈ D, p.eval y + p.dmin ≤ f y ∧ f y ≤ p.eval y + p.dmax

/-- **C45.** If two estimates have valid bounds then so has their difference, for the difference of the curves. -/
theorem C45_sub (p q : EstParab) (f g : ℝ → ℝ) (D : Set ℝ) (hp : p.Valid f D) (hq : q.Valid g D) : (p.sub q).Valid (fun y => f y - g y) D := by
  intro y hy
  have h1 := hp y hy
  have h2 := hq y hy
  simp only [EstParab.sub, EstParab.eval] at h1 h2 ⊢
  constructor <;> linarith [h1.1, h1.2, h2.1, h2.2]

/-- **C45.** The bounds of the difference are the best that follow: both are attained by some pair of curves with the given bounds. -/
theorem C45_sub_sharp (p q : EstParab) (hp : p.dmin ≤ p.dmax) (hq : q.dmin ≤ q.dmax) (D : Set ℝ) :
    (∃ f g, p.Valid f D ∧ q.Valid g D ∧ ∀ y, f y - g y = (p.sub q).eval y + (p.sub q).dmin) ∧
    (∃ f g, p.Valid f D ∧ q.Valid g D ∧ ∀ y, f y - g y = (p.sub q).eval y + (p.sub q).dmax) := by
  refine ⟨⟨fun y => p.eval y + p.dmin, fun y => q.eval y + q.dmax, fun y _ => ⟨le_rfl, by linarith⟩, fun y _ => ⟨by linarith, le_rfl⟩, fun y => ?_⟩,
    ⟨fun y => p.eval y + p.dmax, fun y => q.eval y + q.dmin, fun y _ => ⟨by linarith, le_rfl⟩, fun y _ => ⟨le_rfl, by linarith⟩, fun y => ?_⟩⟩
  · simp only [EstParab.sub, EstParab.eval]; ring
  · simp only [EstParab.sub, EstParab.eval]; ring

/-- Non-vacuity of C45: `y²` estimated by itself and `sin`-like deviation bounds, and `0` estimated by `0 ± 1`. -/
example : (EstParab.sub ⟨0, 0, 1, 0, 0⟩ ⟨0, 0, 0, -1, 1⟩).Valid (fun y => y ^ 2 - 1 / 2) Set.univ := by
  refine C45_sub ⟨0, 0, 1, 0, 0⟩ ⟨0, 0, 0, -1, 1⟩ (fun y => y ^ 2) (fun _ => 1 / 2) Set.univ ?_ ?_
  · intro y _; simp only [EstParab.eval]; constructor <;> nlinarith
  · intro y _; simp only [EstParab.eval]; constructor <;> nlinarith

end Verif.Geom
