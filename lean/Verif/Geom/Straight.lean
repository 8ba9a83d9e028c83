import Verif.Geom.IProps
import Verif.Geom.Props

/-!
# Straight lines

The estimates of straight lines are exact, so the comparison of two lines that are never compared after a rotation keeps its tolerance everywhere (C68 without
exceptions), unless the coordinates are so large that the padding of the estimates exceeds the accuracy.
-/

namespace Verif.Geom
open Verif.Curve

/-- All control points are on the line `x = a + b y`. -/
def Cubic.Straight (c : Cubic) (a b : ℝ) : Prop :=
  c.p0.x = a + b * c.p0.y ∧ c.p1.x = a + b * c.p1.y ∧ c.p2.x = a + b * c.p2.y ∧ c.p3.x = a + b * c.p3.y

variable {c : Cubic} {a b : ℝ}

theorem Cubic.Straight.eval (h : c.Straight a b) (t : ℝ) : (c.eval t).x = a + b * (c.eval t).y := by
  obtain ⟨h0, h1, h2, h3⟩ := h
  simp only [Cubic.eval, bez3, h0, h1, h2, h3]
  ring

theorem Cubic.Straight.deriv (h : c.Straight a b) (t : ℝ) : (c.derivAt t).x = b * (c.derivAt t).y := by
  obtain ⟨h0, h1, h2, h3⟩ := h
  simp only [Cubic.derivAt, Cubic.deriv, bez2, h0, h1, h2, h3]
  ring

theorem Cubic.Straight.solveX (h : c.Straight a b) {y : ℝ} (h0 : c.p0.y ≤ y) (h1 : y ≤ c.p3.y) : Geom.solveX c y = a + b * y := by
  have e := eval_solveT h0 h1
  have := h.eval (solveT c y)
  rw [e] at this
  exact this

theorem Cubic.Straight.sub (h : c.Straight a b) {y0 y1 : ℝ} (hs : c.Spans y0 y1) : (ySubsegment c y0 y1).Straight a b := by
  obtain ⟨s0, s1, s2⟩ := hs
  have e0 := eval_solveT (c := c) (y := y0) s0 (s1.trans s2)
  have e1 := eval_solveT (c := c) (y := y1) (s0.trans s1) s2
  have d0 := h.deriv (solveT c y0)
  have d1 := h.deriv (solveT c y1)
  have x0 := h.solveX s0 (s1.trans s2)
  have x1 := h.solveX (s0.trans s1) s2
  refine ⟨by rw [sub_p0]; exact x0, ?_, ?_, by rw [sub_p3]; exact x1⟩
  · simp only [ySubsegment, Cubic.subsegment, e0, d0, x0]; ring
  · simp only [ySubsegment, Cubic.subsegment, e1, d1, x1]; ring

theorem Cubic.Straight.rescale (h : c.Straight a b) (mid : ℝ) {k : ℝ} (hk : k ≠ 0) : (rescaleC mid k c).Straight (a + b * mid) (b / k) := by
  obtain ⟨h0, h1, h2, h3⟩ := h
  refine ⟨?_, ?_, ?_, ?_⟩ <;> simp only [rescaleC, h0, h1, h2, h3] <;> field_simp <;> ring

/-- The estimate of a straight line is exact. -/
theorem fromCubic_straight (solve : ℝ → ℝ → ℝ → ℝ → List ℝ) (h : c.Straight a b) (hne : c.p0.y ≠ c.p3.y) : fromCubic solve c = ⟨a, b, 0, 0, 0⟩ := by
  obtain ⟨h0, h1, h2, h3⟩ := h
  have hd : c.p3.y - c.p0.y ≠ 0 := sub_ne_zero.2 hne.symm
  have harea : c.signedArea + lineArea c.p3 c.p0 = 0 := by
    simp only [Cubic.signedArea, lineArea, h0, h1, h2, h3]; ring
  have e2 : -6 * (c.signedArea + lineArea c.p3 c.p0) / (c.p3.y - c.p0.y) ^ 3 = 0 := by rw [harea]; simp
  have e1 : (c.p3.x - c.p0.x - (c.p3.y ^ 2 - c.p0.y ^ 2) * 0) / (c.p3.y - c.p0.y) = b := by
    rw [h3, h0]; field_simp; ring
  have e0 : c.p0.x - b * c.p0.y - 0 * c.p0.y ^ 2 = a := by rw [h0]; ring
  have hq : ∀ q : Quad, (q.p0.x = a + b * q.p0.y ∧ q.p1.x = a + b * q.p1.y ∧ q.p2.x = a + b * q.p2.y) → ∀ t, qerr a b 0 q t = 0 := by
    rintro q ⟨k0, k1, k2⟩ t
    simp only [qerr, Quad.eval, bez2, k0, k1, k2]; ring
  have hfold : ∀ q : Quad, (∀ t, qerr a b 0 q t = 0) → ∀ (l : List ℝ), l.foldl (widen a b 0 q) (0, 0) = (0, 0) := by
    intro q hz l
    obtain ⟨_, _, _, k4, k5⟩ := foldl_widen a b 0 q l (0, 0)
    ext
    · rcases k4 with k | ⟨t, _, _, k⟩
      · exact k
      · rw [k, hz]
    · rcases k5 with k | ⟨t, _, _, k⟩
      · exact k
      · rw [k, hz]
  have q0 := hq (hybrid0 c) (by
    refine ⟨h0, ?_, h3⟩
    simp only [hybrid0, Pt.lerp, h0, h1]; ring)
  have q1 := hq (hybrid1 c) (by
    refine ⟨h0, ?_, h3⟩
    simp only [hybrid1, Pt.lerp, h3, h2]; ring)
  unfold fromCubic
  simp only [e2, e1, e0, List.foldl_cons, List.foldl_nil, hfold _ q0, hfold _ q1]

/-- How much the estimates of two straight lines leave open: the padding. -/
theorem diffEst_straight (solve : ℝ → ℝ → ℝ → ℝ → List ℝ) {c0 c1 : Cubic} {a0 b0 a1 b1 : ℝ} (h0 : c0.Straight a0 b0) (h1 : c1.Straight a1 b1) {u v : ℝ}
    (hs0 : c0.Spans u v) (hs1 : c1.Spans u v) (hlt : u < v) {B : ℝ} (k0 : |a0 + b0 * ((u + v) / 2)| ≤ B) (k1 : |a1 + b1 * ((u + v) / 2)| ≤ B)
    (k2 : |b0| * max (v - u) 1 ≤ B) (k3 : |b1| * max (v - u) 1 ≤ B) :
    (diffEst solve (ySubsegment c0 u v) (ySubsegment c1 u v) u v).dmax - (diffEst solve (ySubsegment c0 u v) (ySubsegment c1 u v) u v).dmin ≤
      2 * B / 10 ^ 12 := by
  have hB : 0 ≤ B := (abs_nonneg _).trans k0
  have hm : 0 < max (v - u) 1 := lt_of_lt_of_le one_pos (le_max_right _ _)
  have hk : (1 / max (v - u) 1) ≠ 0 := by positivity
  have hy : ∀ c : Cubic, (rescaleC ((u + v) / 2) (1 / max (v - u) 1) (ySubsegment c u v)).p0.y ≠ (rescaleC ((u + v) / 2) (1 / max (v - u) 1) (ySubsegment c u v)).p3.y := by
    intro c he
    simp only [rescaleC, sub_p0, sub_p3] at he
    have := mul_right_cancel₀ hk he
    linarith
  have f0 := fromCubic_straight solve ((h0.sub hs0).rescale ((u + v) / 2) hk) (hy c0)
  have f1 := fromCubic_straight solve ((h1.sub hs1).rescale ((u + v) / 2) hk) (hy c1)
  have habs : ∀ b : ℝ, |b / (1 / max (v - u) 1)| = |b| * max (v - u) 1 := by
    intro b
    rw [div_div_eq_mul_div, div_one, abs_mul, abs_of_pos hm]
  have hp : ∀ x b : ℝ, |x| ≤ B → |b| * max (v - u) 1 ≤ B → EstParab.maxParam ⟨x, b / (1 / max (v - u) 1), 0, 0, 0⟩ ≤ B := by
    intro x b hx hb
    simp only [EstParab.maxParam, habs, abs_zero]
    exact max_le (max_le hx hb) hB
  have hmax := max_le (hp _ _ k0 k2) (hp _ _ k1 k3)
  unfold diffEst
  simp only [f0, f1, paddedDiff, EstParab.sub]
  have := mul_le_mul_of_nonneg_right hmax (by positivity : (0 : ℝ) ≤ 1 / 10 ^ 12)
  rw [mul_one_div B] at this
  have e : 2 * B / 10 ^ 12 = B / 10 ^ 12 + B / 10 ^ 12 := by ring
  rw [e]
  linarith

/-- Pairs of lines of which one has at most the slope `16` (or which lean to different sides) are never compared after a rotation. -/
theorem straight_upright {c0 c1 : Cubic} {a0 b0 a1 b1 acc : ℝ} (h0 : c0.Straight a0 b0) (h1 : c1.Straight a1 b1) (hacc : 0 < acc)
    (hb : |b0| < 16 ∨ |b1| < 16 ∨ ¬ (0 < b0 ↔ 0 < b1)) : Upright acc c0 c1 := by
  intro u v x0 x1 x0' x1' huv ⟨s0, _, _, e0⟩ ⟨s0', _, _, e0'⟩ ⟨s1, _, _, e1⟩ ⟨s1', _, _, e1'⟩
  have k0 := h0.eval s0
  have k0' := h0.eval s0'
  have k1 := h1.eval s1
  have k1' := h1.eval s1'
  rw [e0] at k0; rw [e0'] at k0'; rw [e1] at k1; rw [e1'] at k1'
  dsimp only at k0 k0' k1 k1'
  have d0 : x0' - x0 = b0 * (v - u) := by rw [k0, k0']; ring
  have d1 : x1' - x1 = b1 * (v - u) := by rw [k1, k1']; ring
  have hp : 0 < v - u := by linarith
  rw [d0, d1, abs_mul, abs_mul, abs_of_pos hp]
  rcases hb with h | h | h
  · exact Or.inl (mul_lt_mul_of_pos_right h hp)
  · exact Or.inr (Or.inl (mul_lt_mul_of_pos_right h hp))
  · refine Or.inr (Or.inr ?_)
    rwa [mul_pos_iff_of_pos_right hp, mul_pos_iff_of_pos_right hp]

/-- **C68 for straight lines.** The comparison of two straight lines that are never compared after a rotation keeps its tolerance at every height, if the coordinates are not
too large for the padding of the estimates. -/
theorem C68_straight (solve : ℝ → ℝ → ℝ → ℝ → List ℝ) (hsolve : FindsRoots solve) (tol acc : ℝ) (hacc : 0 < acc) (hat : acc ≤ tol)
    (c0 c1 : Cubic) (h0 : c0.Mono) (h1 : c1.Mono) (a0 b0 a1 b1 : ℝ) (l0 : c0.Straight a0 b0) (l1 : c1.Straight a1 b1)
    (hb : |b0| < 16 ∨ |b1| < 16 ∨ ¬ (0 < b0 ↔ 0 < b1)) (B : ℝ) (hB : 2 * B / 10 ^ 12 ≤ acc)
    (x0 : ∀ x t, c0.At x t → |x| ≤ B) (x1 : ∀ x t, c1.At x t → |x| ≤ B) (s0 : |b0| * max acc 1 ≤ B) (s1 : |b1| * max acc 1 ≤ B)
    (hov : max c0.p0.y c1.p0.y ≤ min c0.p3.y c1.p3.y) :
    ∃ N out, (∀ n ≥ N, intersectCubics solve tol acc n c0 c1 = some out) ∧ WF out ∧ out.start = max c0.p0.y c1.p0.y ∧
      Curve.EndsAt out (min c0.p3.y c1.p3.y) ∧
      ∀ p ∈ out.iter, ∀ t x0 x1, p.lo ≤ t → t ≤ p.hi → c0.At x0 t → c1.At x1 t →
        (p.order = .left → x0 + tol ≤ x1) ∧ (p.order = .right → x1 + tol ≤ x0) ∧ (p.order = .ish → CloseAt c0 c1 tol (tol + acc) t) := by
  obtain ⟨N, out, k1, k2, k3, k4, k5⟩ := C68_tolerance solve hsolve tol acc hacc hat c0 c1 h0 h1 (straight_upright l0 l1 hacc hb) hov
  refine ⟨N, out, k1, k2, k3, k4, fun p hp t x x' ht0 ht1 ha ha' => ?_⟩
  obtain ⟨q1, q2, q3⟩ := k5 p hp t x x' ht0 ht1 ha ha'
  refine ⟨q1, q2, fun ho => (q3 ho).resolve_right ?_⟩
  rintro ⟨u, spread, ⟨sp0, sp1⟩, _, _, e, hlt, _⟩
  have key : ∀ {c : Cubic} {a b : ℝ}, c.Straight a b → c.Spans u (u + acc) → (∀ x t, c.At x t → |x| ≤ B) → |a + b * ((u + (u + acc)) / 2)| ≤ B := by
    intro c a b l sp hx
    have m0 : c.p0.y ≤ (u + (u + acc)) / 2 := by linarith [sp.1]
    have m1 : (u + (u + acc)) / 2 ≤ c.p3.y := by linarith [sp.2.2]
    have := hx _ _ (at_of_range m0 m1)
    rwa [l.solveX m0 m1] at this
  have ew : u + acc - u = acc := by ring
  have := diffEst_straight solve l0 l1 sp0 sp1 (by linarith) (B := B) (key l0 sp0 x0) (key l1 sp1 x1) (by rw [ew]; exact s0) (by rw [ew]; exact s1)
  rw [← e] at this
  linarith

/-- The horizontal distance of two straight lines between two heights at which it is at most `d`. -/
theorem straight_between {c0 c1 : Cubic} {a0 b0 a1 b1 d y0 y1 t : ℝ} (l0 : c0.Straight a0 b0) (l1 : c1.Straight a1 b1) (s0 : c0.Spans y0 y1) (s1 : c1.Spans y0 y1)
    (h0 : |Geom.solveX c1 y0 - Geom.solveX c0 y0| ≤ d) (h1 : |Geom.solveX c1 y1 - Geom.solveX c0 y1| ≤ d) (t0 : y0 ≤ t) (t1 : t ≤ y1) :
    |Geom.solveX c1 t - Geom.solveX c0 t| ≤ d := by
  have e : ∀ {u}, y0 ≤ u → u ≤ y1 → Geom.solveX c1 u - Geom.solveX c0 u = (a1 - a0) + (b1 - b0) * u := by
    intro u g0 g1
    rw [l0.solveX (s0.1.trans g0) (g1.trans s0.2.2), l1.solveX (s1.1.trans g0) (g1.trans s1.2.2)]; ring
  rw [e le_rfl s0.2.1, abs_le] at h0
  rw [e s0.2.1 le_rfl, abs_le] at h1
  rw [e t0 t1, abs_le]
  rcases le_total 0 (b1 - b0) with g | g
  · have k0 := mul_le_mul_of_nonneg_left t0 g
    have k1 := mul_le_mul_of_nonneg_left t1 g
    constructor <;> linarith
  · have k0 := mul_le_mul_of_nonpos_left t0 g
    have k1 := mul_le_mul_of_nonpos_left t1 g
    constructor <;> linarith

/-- **C68 for straight lines, at the same height.** The comparison of two straight lines says "close" only at heights at which they are horizontally not
more than `tol + acc` apart - except if their whole common range is less than `acc` high, and then they come that close in that range. -/
theorem C68_lines (solve : ℝ → ℝ → ℝ → ℝ → List ℝ) (hsolve : FindsRoots solve) (tol acc : ℝ) (hacc : 0 < acc) (hat : acc ≤ tol)
    (c0 c1 : Cubic) (h0 : c0.Mono) (h1 : c1.Mono) (a0 b0 a1 b1 : ℝ) (l0 : c0.Straight a0 b0) (l1 : c1.Straight a1 b1)
    (hb : |b0| < 16 ∨ |b1| < 16 ∨ ¬ (0 < b0 ↔ 0 < b1)) (B : ℝ) (hB : 4 * B / 10 ^ 12 ≤ acc)
    (x0 : ∀ x t, c0.At x t → |x| ≤ B) (x1 : ∀ x t, c1.At x t → |x| ≤ B) (s0 : |b0| ≤ 2 * B) (s1 : |b1| ≤ 2 * B)
    (hov : max c0.p0.y c1.p0.y ≤ min c0.p3.y c1.p3.y) :
    ∃ N out, (∀ n ≥ N, intersectCubics solve tol acc n c0 c1 = some out) ∧ WF out ∧ out.start = max c0.p0.y c1.p0.y ∧
      Curve.EndsAt out (min c0.p3.y c1.p3.y) ∧
      ∀ p ∈ out.iter, ∀ t x0 x1, p.lo ≤ t → t ≤ p.hi → c0.At x0 t → c1.At x1 t →
        (p.order = .left → x0 + tol ≤ x1) ∧ (p.order = .right → x1 + tol ≤ x0) ∧
        (p.order = .ish → |x1 - x0| ≤ tol + acc ∨ (min c0.p3.y c1.p3.y - max c0.p0.y c1.p0.y < acc ∧
          ∃ z0 w0 z1 w1, c0.At z0 w0 ∧ c1.At z1 w1 ∧ (c0.p0.y ≤ w1 ∧ w1 ≤ c0.p3.y) ∧ (c1.p0.y ≤ w0 ∧ w0 ≤ c1.p3.y) ∧ |z1 - z0| ≤ tol)) := by
  have htol : 0 < tol := hacc.trans_le hat
  obtain ⟨y0, hy0⟩ : ∃ y0, y0 = max c0.p0.y c1.p0.y := ⟨_, rfl⟩
  obtain ⟨y1, hy1⟩ : ∃ y1, y1 = min c0.p3.y c1.p3.y := ⟨_, rfl⟩
  obtain ⟨R, hR⟩ : ∃ R : Prop, R = (y1 - y0 < acc ∧ ∃ u v, y0 ≤ u ∧ u ≤ y1 ∧ y0 ≤ v ∧ v ≤ y1 ∧ |Geom.solveX c1 v - Geom.solveX c0 u| ≤ tol) := ⟨_, rfl⟩
  obtain ⟨Q, hQ⟩ : ∃ Q : Order → ℝ → Prop, Q = fun o t => match o with
      | .left => Geom.solveX c0 t + tol ≤ Geom.solveX c1 t
      | .right => Geom.solveX c1 t + tol ≤ Geom.solveX c0 t
      | .ish => |Geom.solveX c1 t - Geom.solveX c0 t| ≤ tol + acc ∨ R := ⟨_, rfl⟩
  have hex : ∀ t, Q .left t → Q .right t → False := by
    intro t a b
    rw [hQ] at a b
    dsimp only at a b
    linarith
  obtain ⟨N, out, a, k1, k2, k3, _, k5⟩ := whole_ok (solve := solve) (acc := acc) (Q := Q) htol h0 h1 hov hex
    (fun t h => by rw [hQ]; exact h.le) (fun t h => by rw [hQ]; exact h.le)
    (fun t _ _ _ _ h => by rw [hQ]; left; linarith) (fun hlt => by
      rw [← hy0, ← hy1] at hlt ⊢
      have p0 : c0.Spans y0 y1 := ⟨by rw [hy0]; exact le_max_left _ _, hlt.le, by rw [hy1]; exact min_le_left _ _⟩
      have p1 : c1.Spans y0 y1 := ⟨by rw [hy0]; exact le_max_right _ _, hlt.le, by rw [hy1]; exact min_le_right _ _⟩
      have at0 : ∀ {t}, y0 ≤ t → t ≤ y1 → c0.At (Geom.solveX c0 t) t := fun g g' => at_of_range (p0.1.trans g) (g'.trans p0.2.2)
      have at1 : ∀ {t}, y0 ≤ t → t ≤ y1 → c1.At (Geom.solveX c1 t) t := fun g g' => at_of_range (p1.1.trans g) (g'.trans p1.2.2)
      have key : ∀ {c : Cubic} {a b : ℝ}, c.Straight a b → c.Spans y0 y1 → (∀ x t, c.At x t → |x| ≤ B) → |b| ≤ 2 * B →
          |a + b * ((y0 + y1) / 2)| ≤ 2 * B ∧ |b| * max (y1 - y0) 1 ≤ 2 * B := by
        intro c a b l sp hx hb
        have ex : ∀ {t}, y0 ≤ t → t ≤ y1 → |a + b * t| ≤ B := by
          intro t g g'
          have := hx _ _ (at_of_range (sp.1.trans g) (g'.trans sp.2.2))
          rwa [l.solveX (sp.1.trans g) (g'.trans sp.2.2)] at this
        have g0 := ex le_rfl hlt.le
        have g1 := ex hlt.le le_rfl
        have gm := ex (t := (y0 + y1) / 2) (by linarith) (by linarith)
        have hB0 : 0 ≤ B := (abs_nonneg _).trans g0
        refine ⟨by linarith, ?_⟩
        rcases max_choice (y1 - y0) 1 with m | m <;> rw [m]
        · have e : |b| * (y1 - y0) = |b * (y1 - y0)| := by rw [abs_mul, abs_of_pos (by linarith : 0 < y1 - y0)]
          rw [e, abs_le]
          rw [abs_le] at g0 g1
          constructor <;> linarith
        · rw [mul_one]; exact hb
      have hspread := diffEst_straight solve l0 l1 p0 p1 hlt (key l0 p0 x0 s0).1 (key l1 p1 x1 s1).1 (key l0 p0 x0 s0).2 (key l1 p1 x1 s1).2
      have hspread : (diffEst solve (ySubsegment c0 y0 y1) (ySubsegment c1 y0 y1) y0 y1).dmax - (diffEst solve (ySubsegment c0 y0 y1) (ySubsegment c1 y0 y1) y0 y1).dmin ≤ acc := by
        refine hspread.trans (le_trans (le_of_eq ?_) hB)
        ring
      refine step_ok hex hsolve htol h0 h1 p0 p1 (fun t _ _ h => by rw [hQ]; exact h) (fun t _ _ h => by rw [hQ]; exact h) (fun hd t ht0 ht1 => ?_)
        (fun hh hb t ht0 ht1 => ?_) (fun t ht0 ht1 h => ?_) (fun ha => Filter.Eventually.of_forall fun n s out _ => Or.inl ?_) hacc (fun _ h => absurd hspread h)
      · rw [hQ]
        left
        obtain ⟨m1, -⟩ := maxDistance_eval (ySubsegment c0 y0 y1) (ySubsegment c1 y0 y1) (s := 0) le_rfl zero_le_one
        obtain ⟨m2, -⟩ := maxDistance_eval (ySubsegment c0 y0 y1) (ySubsegment c1 y0 y1) (s := 1) zero_le_one le_rfl
        have e0 : ∀ c : Cubic, (c.eval 0) = c.p0 := by intro c; ext <;> simp [Cubic.eval, bez3]
        have e1 : ∀ c : Cubic, (c.eval 1) = c.p3 := by intro c; ext <;> simp [Cubic.eval, bez3]
        rw [e0, e0, sub_p0, sub_p0, abs_sub_comm] at m1
        rw [e1, e1, sub_p3, sub_p3, abs_sub_comm] at m2
        have := straight_between l0 l1 p0 p1 (d := tol) (m1.trans hd) (m2.trans hd) ht0 ht1
        linarith
      · rw [hQ]
        right
        rw [hR]
        exact ⟨hh, box_close htol h0 h1 p0 p1 hb⟩
      · rw [hQ]
        left
        rcases h with h | ⟨_, h⟩
        · exact h
        · linarith
      · have hu := straight_upright l0 l1 hacc hb y0 y1 _ _ _ _ ha (at0 le_rfl p0.2.1) (at0 p0.2.1 le_rfl) (at1 le_rfl p1.2.1) (at1 p1.2.1 le_rfl)
        exact no_rotation hu)
  refine ⟨N, out, a, k1, k2, k3, fun p hp t x0 x1 ht0 ht1 ha0 ha1 => ?_⟩
  obtain ⟨e0, r0, r0'⟩ := at_solveX h0 ha0
  obtain ⟨e1, r1, r1'⟩ := at_solveX h1 ha1
  have hq := k5 p hp t (max_le r0 r1) ht0 ht1
  rw [hQ] at hq
  rw [e0, e1]
  refine ⟨?_, ?_, ?_⟩ <;> intro ho <;> rw [ho] at hq
  · exact hq
  · exact hq
  · rcases hq with hq | hq
    · exact Or.inl hq
    · right
      rw [hR] at hq
      obtain ⟨g1, u, v, u0, u1, v0, v1, g2⟩ := hq
      rw [← hy0, ← hy1]
      rw [hy0] at u0 v0
      rw [hy1] at u1 v1
      have u0 := max_le_iff.1 u0
      have v0 := max_le_iff.1 v0
      have u1 := le_min_iff.1 u1
      have v1 := le_min_iff.1 v1
      exact ⟨g1, _, u, _, v, at_of_range u0.1 u1.1, at_of_range v0.2 v1.2, ⟨v0.1, v1.1⟩, ⟨u0.2, u1.2⟩, g2⟩

end Verif.Geom
