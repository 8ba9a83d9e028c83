import Verif.Geom.Straight
import Mathlib.Topology.Order.IntermediateValue
import Mathlib.Topology.Order.MonotoneContinuity

/-!
# How much the estimates of curves leave open

The spread of the estimate of a curve is bounded by the horizontal extent of its control points (`spread_extent`), and on short pieces of curves whose control
polygon is not flat by the height of the piece (`Cubic.Steep`).
-/

namespace Verif.Geom
open Verif.Curve

/-! ## Continuity -/

theorem continuousOn_solveX {c : Cubic} (h : c.Mono) : ContinuousOn (solveX c) (Set.Icc c.p0.y c.p3.y) := by
  obtain ⟨F, hF⟩ : ∃ F : Set.Icc c.p0.y c.p3.y → Set.Icc (0 : ℝ) 1, F = fun y => ⟨solveT c y.1, (solveT_spec y.2.1 y.2.2).1, (solveT_spec y.2.1 y.2.2).2.1⟩ := ⟨_, rfl⟩
  have hm : Monotone F := by
    intro y y' hy
    rw [hF]
    exact h.solveT_le y.2.1 hy y'.2.2
  have hsurj : Function.Surjective F := by
    rintro ⟨t, t0, t1⟩
    have h0 : (c.eval 0).y = c.p0.y := by simp [Cubic.eval, bez3]
    have h1 : (c.eval 1).y = c.p3.y := by simp [Cubic.eval, bez3]
    refine ⟨⟨(c.eval t).y, ?_, ?_⟩, ?_⟩
    · rw [← h0]; exact h.mono le_rfl t0 t1
    · rw [← h1]; exact h.mono t0 t1 le_rfl
    · rw [hF]
      exact Subtype.ext (h.solveT_unique t0 t1 rfl)
  have hc := hm.continuous_of_surjective hsurj
  rw [continuousOn_iff_continuous_restrict]
  have e : (Set.Icc c.p0.y c.p3.y).domRestrict (solveX c) = fun y => (c.eval (F y).1).x := by
    rw [hF]; rfl
  rw [e]
  simp only [Cubic.eval, bez3]
  fun_prop

/-! ## The estimate of one curve -/

/-- The control points are horizontally not more than `X` away from the first one. -/
def Cubic.Extent (c : Cubic) (X : ℝ) : Prop := |c.p1.x - c.p0.x| ≤ X ∧ |c.p2.x - c.p0.x| ≤ X ∧ |c.p3.x - c.p0.x| ≤ X

/-- The heights of the control points of a monotone curve. -/
theorem Cubic.Mono.legs {c : Cubic} (h : c.Mono) : 0 ≤ c.p1.y - c.p0.y ∧ c.p1.y - c.p0.y ≤ 4 / 3 * (c.p3.y - c.p0.y) ∧ 0 ≤ c.p3.y - c.p2.y ∧
    c.p3.y - c.p2.y ≤ 4 / 3 * (c.p3.y - c.p0.y) := by
  have h0 := h.2 0 le_rfl zero_le_one
  have h1 := h.2 1 zero_le_one le_rfl
  have h2 := h.2 (1 / 3) (by norm_num) (by norm_num)
  have h3 := h.2 (2 / 3) (by norm_num) (by norm_num)
  simp only [Cubic.derivAt, Cubic.deriv, bez2] at h0 h1 h2 h3
  norm_num at h0 h1 h2 h3
  refine ⟨?_, ?_, ?_, ?_⟩ <;> linarith

theorem Cubic.area_extent {c : Cubic} (h : c.Mono) {X : ℝ} (hX : c.Extent X) :
    |c.signedArea + lineArea c.p3 c.p0| ≤ 7 / 6 * (X * (c.p3.y - c.p0.y)) := by
  obtain ⟨b1, b2, b3, b4⟩ := h.legs
  obtain ⟨x1, x2, x3⟩ := hX
  have e : c.signedArea + lineArea c.p3 c.p0 = (3 * ((c.p1.x - c.p0.x) * (2 * (c.p3.y - c.p0.y) - (c.p3.y - c.p2.y))) +
      (c.p2.x - c.p0.x) * (6 * (c.p3.y - c.p0.y) - 3 * (c.p1.y - c.p0.y)) -
      (c.p3.x - c.p0.x) * (3 * (c.p1.y - c.p0.y) + 6 * ((c.p3.y - c.p0.y) - (c.p3.y - c.p2.y)))) / 20 := by
    simp only [Cubic.signedArea, lineArea]; ring
  rw [e]
  obtain ⟨H, hH⟩ : ∃ H, H = c.p3.y - c.p0.y := ⟨_, rfl⟩
  obtain ⟨u, hu⟩ : ∃ u, u = c.p1.y - c.p0.y := ⟨_, rfl⟩
  obtain ⟨v, hv⟩ : ∃ v, v = c.p3.y - c.p2.y := ⟨_, rfl⟩
  rw [← hH] at b2 b4 ⊢
  rw [← hu] at b1 b2 ⊢
  rw [← hv] at b3 b4 ⊢
  have hX0 : 0 ≤ X := (abs_nonneg _).trans x1
  have hH0 : 0 ≤ H := by linarith
  have m1 : |(c.p1.x - c.p0.x) * (2 * H - v)| ≤ X * (2 * H) := by
    rw [abs_mul]
    exact mul_le_mul x1 (by rw [abs_le]; constructor <;> linarith) (abs_nonneg _) hX0
  have m2 : |(c.p2.x - c.p0.x) * (6 * H - 3 * u)| ≤ X * (6 * H) := by
    rw [abs_mul]
    exact mul_le_mul x2 (by rw [abs_le]; constructor <;> linarith) (abs_nonneg _) hX0
  have m3 : |(c.p3.x - c.p0.x) * (3 * u + 6 * (H - v))| ≤ X * (10 * H) := by
    rw [abs_mul]
    exact mul_le_mul x3 (by rw [abs_le]; constructor <;> linarith) (abs_nonneg _) hX0
  rw [abs_le] at m1 m2 m3 ⊢
  have := mul_nonneg hX0 hH0
  constructor <;> linarith [m1.1, m1.2, m2.1, m2.2, m3.1, m3.2]

theorem fromCubic_c2 (solve : ℝ → ℝ → ℝ → ℝ → List ℝ) {c : Cubic} (h : c.Mono) {X : ℝ} (hX : c.Extent X) :
    |(fromCubic solve c).c2| * (c.p3.y - c.p0.y) ^ 2 ≤ 7 * X := by
  have hd : 0 < c.p3.y - c.p0.y := by linarith [h.1]
  have ha := c.area_extent h hX
  have e : (fromCubic solve c).c2 = -6 * (c.signedArea + lineArea c.p3 c.p0) / (c.p3.y - c.p0.y) ^ 3 := rfl
  rw [e, abs_div, abs_of_pos (by positivity : 0 < (c.p3.y - c.p0.y) ^ 3), abs_mul, abs_neg, abs_of_pos (by norm_num : (0 : ℝ) < 6)]
  rw [div_mul_eq_mul_div, div_le_iff₀ (by positivity)]
  have := mul_le_mul_of_nonneg_right ha (by positivity : 0 ≤ 6 * (c.p3.y - c.p0.y) ^ 2)
  nlinarith

theorem mid_bound {n : ℝ} (h1 : -(1 / 3) ≤ n) (h2 : n ≤ 4 / 3) : |n * (n - 1)| ≤ 4 / 9 := by
  have a := sq_nonneg (n - 1 / 2)
  have b := mul_nonneg (by linarith : 0 ≤ n + 1 / 3) (by linarith : 0 ≤ 4 / 3 - n)
  rw [abs_le]
  constructor <;> nlinarith only [a, b]

/-- How far a hybrid of the curve is from the parabola. -/
theorem hybrid_err (solve : ℝ → ℝ → ℝ → ℝ → List ℝ) {c : Cubic} (h : c.Mono) {X : ℝ} (hX : c.Extent X) {q : Quad} (hq : q = hybrid0 c ∨ q = hybrid1 c) {t : ℝ}
    (t0 : 0 ≤ t) (t1 : t ≤ 1) : |(q.eval t).x - (fromCubic solve c).eval (q.eval t).y| ≤ 5 * X := by
  obtain ⟨b1, b2, b3, b4⟩ := h.legs
  obtain ⟨x1, x2, x3⟩ := hX
  have hd : 0 < c.p3.y - c.p0.y := by linarith [h.1]
  have hX0 : 0 ≤ X := (abs_nonneg _).trans x1
  have hc2 := fromCubic_c2 solve h ⟨x1, x2, x3⟩
  obtain ⟨g0, g1⟩ := fromCubic_ends solve c h.1.ne
  obtain ⟨f, hf⟩ : ∃ f, f = fromCubic solve c := ⟨_, rfl⟩
  rw [← hf] at hc2 g0 g1 ⊢
  obtain ⟨H, hH⟩ : ∃ H, H = c.p3.y - c.p0.y := ⟨_, rfl⟩
  rw [← hH] at b2 b4 hd hc2
  have hy3 : c.p3.y = c.p0.y + H := by linarith
  -- the middle control point of the hybrid, relative to the curve
  obtain ⟨w, s, hw, hs, s0, s1, hws⟩ : ∃ w s, q.p1.x = c.p0.x + w ∧ q.p1.y = c.p0.y + s * H ∧ -1 ≤ s ∧ s ≤ 2 ∧ |w - (c.p3.x - c.p0.x) * s| ≤ 7 / 2 * X := by
    rcases hq with rfl | rfl
    · refine ⟨3 / 2 * (c.p1.x - c.p0.x), 3 / 2 * (c.p1.y - c.p0.y) / H, rfl, ?_, ?_, ?_, ?_⟩
      · rw [div_mul_cancel₀ _ hd.ne']; rfl
      · rw [le_div_iff₀ hd]; linarith
      · rw [div_le_iff₀ hd]; linarith
      · obtain ⟨s, hs⟩ : ∃ s, s = 3 / 2 * (c.p1.y - c.p0.y) / H := ⟨_, rfl⟩
        have s0 : 0 ≤ s := by rw [hs]; positivity
        have s1 : s ≤ 2 := by rw [hs, div_le_iff₀ hd]; linarith
        rw [← hs]
        have : |(c.p3.x - c.p0.x) * s| ≤ X * 2 := by
          rw [abs_mul]; exact mul_le_mul x3 (by rw [abs_le]; constructor <;> linarith) (abs_nonneg _) hX0
        rw [abs_le] at x1 this ⊢
        constructor <;> linarith [x1.1, x1.2, this.1, this.2]
    · refine ⟨(c.p3.x - c.p0.x) + 3 / 2 * (c.p2.x - c.p3.x), 1 - 3 / 2 * (c.p3.y - c.p2.y) / H, ?_, ?_, ?_, ?_, ?_⟩
      · simp only [hybrid1, Pt.lerp]; ring
      · rw [sub_mul, div_mul_cancel₀ _ hd.ne']; simp only [hybrid1, Pt.lerp]; linarith
      · have : 3 / 2 * (c.p3.y - c.p2.y) / H ≤ 2 := by rw [div_le_iff₀ hd]; linarith
        linarith
      · have : 0 ≤ 3 / 2 * (c.p3.y - c.p2.y) / H := by positivity
        linarith
      · obtain ⟨s, hs⟩ : ∃ s, s = 3 / 2 * (c.p3.y - c.p2.y) / H := ⟨_, rfl⟩
        have s0 : 0 ≤ s := by rw [hs]; positivity
        have s1 : s ≤ 2 := by rw [hs, div_le_iff₀ hd]; linarith
        rw [← hs]
        have : |(c.p3.x - c.p0.x) * (s - 3 / 2)| ≤ X * 2 := by
          rw [abs_mul]; exact mul_le_mul x3 (by rw [abs_le]; constructor <;> linarith) (abs_nonneg _) hX0
        rw [abs_le] at x2 this ⊢
        constructor <;> linarith [x2.1, x2.2, this.1, this.2]
  have hq0 : q.p0 = c.p0 := by rcases hq with rfl | rfl <;> rfl
  have hq2 : q.p2 = c.p3 := by rcases hq with rfl | rfl <;> rfl
  obtain ⟨n, hn⟩ : ∃ n, n = 2 * (1 - t) * t * s + t ^ 2 := ⟨_, rfl⟩
  have ey : (q.eval t).y = c.p0.y + n * H := by
    simp only [Quad.eval, bez2, hq0, hq2, hs, hy3, hn]; ring
  have ep : ∀ n, f.eval (c.p0.y + n * H) = c.p0.x + (c.p3.x - c.p0.x) * n + f.c2 * H ^ 2 * (n * (n - 1)) := by
    intro n
    rw [hy3] at g1
    simp only [EstParab.eval] at g0 g1 ⊢
    linear_combination (1 - n) * g0 + n * g1
  have ex : (q.eval t).x - f.eval (q.eval t).y = 2 * (1 - t) * t * (w - (c.p3.x - c.p0.x) * s) - f.c2 * H ^ 2 * (n * (n - 1)) := by
    rw [ey, ep]
    simp only [Quad.eval, bez2, hq0, hq2, hw, hn]
    ring
  rw [ex]
  have ht : 0 ≤ 2 * (1 - t) * t ∧ 2 * (1 - t) * t ≤ 1 / 2 := ⟨by have : 0 ≤ 1 - t := by linarith
                                                                 positivity, by nlinarith [sq_nonneg (t - 1 / 2)]⟩
  have hn1 : -(1 / 3) ≤ n := by rw [hn]; nlinarith [sq_nonneg (3 * t - 1), mul_nonneg ht.1 (by linarith : 0 ≤ s + 1)]
  have hn2 : n ≤ 4 / 3 := by rw [hn]; nlinarith [sq_nonneg (3 * t - 2), mul_nonneg ht.1 (by linarith : 0 ≤ 2 - s)]
  have k1 : |2 * (1 - t) * t * (w - (c.p3.x - c.p0.x) * s)| ≤ 1 / 2 * (7 / 2 * X) := by
    rw [abs_mul, abs_of_nonneg ht.1]
    exact mul_le_mul ht.2 hws (abs_nonneg _) (by norm_num)
  have k2 : |f.c2 * H ^ 2 * (n * (n - 1))| ≤ 7 * X * (4 / 9) := by
    rw [abs_mul, abs_mul, abs_of_nonneg (sq_nonneg H)]
    refine mul_le_mul hc2 ?_ (abs_nonneg _) (by linarith)
    exact mid_bound hn1 hn2
  rw [abs_le] at k1 k2 ⊢
  constructor <;> linarith [k1.1, k1.2, k2.1, k2.2]

/-- The estimate leaves open not more than ten times the extent of the control points. -/
theorem spread_extent (solve : ℝ → ℝ → ℝ → ℝ → List ℝ) (hs : FindsRoots solve) {c : Cubic} (h : c.Mono) {X : ℝ} (hX : c.Extent X) :
    (fromCubic solve c).dmax - (fromCubic solve c).dmin ≤ 10 * X := by
  obtain ⟨-, -, -, ⟨q, t, h1, h2, h3, h4⟩, ⟨q', t', h1', h2', h3', h4'⟩⟩ := fromCubic_bounds solve hs c h.1.ne
  have e := hybrid_err solve h hX h1 h2 h3
  have e' := hybrid_err solve h hX h1' h2' h3'
  rw [← h4, abs_le] at e
  rw [← h4', abs_le] at e'
  linarith [e.1, e'.2]

/-- The coefficients of the estimate of a curve that is centred. -/
theorem maxParam_extent (solve : ℝ → ℝ → ℝ → ℝ → List ℝ) {c : Cubic} (h : c.Mono) {X B k : ℝ} (hX : c.Extent X) (hc : c.p0.y = -c.p3.y) (hB : |c.p0.x| ≤ B)
    (hk : 1 ≤ k * (c.p3.y - c.p0.y)) (hk1 : 1 ≤ k) : (fromCubic solve c).maxParam ≤ B + 11 * X * k ^ 2 := by
  have hd : 0 < c.p3.y - c.p0.y := by linarith [h.1]
  have hX0 : 0 ≤ X := (abs_nonneg _).trans hX.1
  have hB0 : 0 ≤ B := (abs_nonneg _).trans hB
  have hc2 := fromCubic_c2 solve h hX
  have hx3 := hX.2.2
  have e1 : (fromCubic solve c).c1 = (c.p3.x - c.p0.x) / (c.p3.y - c.p0.y) := by
    simp only [fromCubic, hc]; ring_nf
  obtain ⟨g0, -⟩ := fromCubic_ends solve c h.1.ne
  obtain ⟨f, hf⟩ : ∃ f, f = fromCubic solve c := ⟨_, rfl⟩
  rw [← hf] at hc2 g0 e1 ⊢
  have hp0 : c.p0.y = -((c.p3.y - c.p0.y) / 2) := by linarith
  obtain ⟨H, hH⟩ : ∃ H, H = c.p3.y - c.p0.y := ⟨_, rfl⟩
  rw [← hH] at hc2 e1 hk hd hp0
  have hkk : 1 ≤ k ^ 2 := by nlinarith
  have hXk : X ≤ X * k ^ 2 := le_mul_of_one_le_right hX0 hkk
  have hXk' : X * k ≤ X * k ^ 2 := mul_le_mul_of_nonneg_left (by nlinarith) hX0
  have k2 : |f.c2| ≤ 7 * X * k ^ 2 := by
    have : |f.c2| ≤ |f.c2| * (k * H) ^ 2 := le_mul_of_one_le_right (abs_nonneg _) (by nlinarith)
    have h7 := mul_le_mul_of_nonneg_right hc2 (sq_nonneg k)
    nlinarith
  have k1 : |f.c1| ≤ X * k := by
    rw [e1, abs_div, abs_of_pos hd, div_le_iff₀ hd, mul_assoc]
    exact hx3.trans (le_mul_of_one_le_right hX0 hk)
  have k0 : |f.c0| ≤ B + 11 / 4 * X := by
    have e0 : f.c0 = c.p0.x + (f.c1 * H) / 2 - (f.c2 * H ^ 2) / 4 := by
      simp only [EstParab.eval] at g0
      rw [hp0] at g0
      linarith
    have m1 : |f.c1 * H| ≤ X := by rw [e1, div_mul_cancel₀ _ hd.ne']; exact hx3
    have m2 : |f.c2 * H ^ 2| ≤ 7 * X := by rw [abs_mul, abs_of_nonneg (sq_nonneg H)]; exact hc2
    rw [e0]
    rw [abs_le] at m1 m2 hB ⊢
    constructor <;> linarith [m1.1, m1.2, m2.1, m2.2, hB.1, hB.2]
  unfold EstParab.maxParam
  refine max_le (max_le ?_ ?_) ?_
  · linarith
  · linarith
  · linarith

/-! ## The estimate of the difference -/

/-- What the estimate of the part of the curve between the heights `u` and `v` leaves open, and twice its contribution to the padding. -/
noncomputable def uncertainty (solve : ℝ → ℝ → ℝ → ℝ → List ℝ) (c : Cubic) (u v : ℝ) : ℝ :=
  let e := fromCubic solve (rescaleC ((u + v) / 2) (1 / max (v - u) 1) (ySubsegment c u v))
  e.dmax - e.dmin + 2 * e.maxParam / 10 ^ 12

theorem diffEst_spread (solve : ℝ → ℝ → ℝ → ℝ → List ℝ) (c0 c1 : Cubic) (u v : ℝ) :
    (diffEst solve (ySubsegment c0 u v) (ySubsegment c1 u v) u v).dmax - (diffEst solve (ySubsegment c0 u v) (ySubsegment c1 u v) u v).dmin ≤
      uncertainty solve c0 u v + uncertainty solve c1 u v := by
  unfold diffEst uncertainty
  simp only [paddedDiff, EstParab.sub]
  obtain ⟨f0, hf0⟩ : ∃ f, f = fromCubic solve (rescaleC ((u + v) / 2) (1 / max (v - u) 1) (ySubsegment c0 u v)) := ⟨_, rfl⟩
  obtain ⟨f1, hf1⟩ : ∃ f, f = fromCubic solve (rescaleC ((u + v) / 2) (1 / max (v - u) 1) (ySubsegment c1 u v)) := ⟨_, rfl⟩
  rw [← hf0, ← hf1]
  have nn : ∀ f : EstParab, 0 ≤ f.maxParam := fun f => by unfold EstParab.maxParam; exact le_max_of_le_right (abs_nonneg _)
  have : max f0.maxParam f1.maxParam ≤ f0.maxParam + f1.maxParam := max_le (by linarith [nn f1]) (by linarith [nn f0])
  have := mul_le_mul_of_nonneg_right this (by positivity : (0 : ℝ) ≤ 1 / 10 ^ 12)
  linarith

/-- What the estimates of a curve leave open on parts of the height `acc` of which the control points have the extent `X`, if no point is further than `B` from the
vertical axis. -/
noncomputable def roughness (acc B X : ℝ) : ℝ := 10 * X + 2 * (B + 11 * X * (max acc 1 / acc) ^ 2) / 10 ^ 12

theorem uncertainty_extent (solve : ℝ → ℝ → ℝ → ℝ → List ℝ) (hs : FindsRoots solve) {c : Cubic} (h : c.Mono) {u acc X B : ℝ} (hacc : 0 < acc)
    (hsp : c.Spans u (u + acc)) (hX : (ySubsegment c u (u + acc)).Extent X) (hB : |solveX c u| ≤ B) : uncertainty solve c u (u + acc) ≤ roughness acc B X := by
  have e : u + acc - u = acc := by ring
  unfold uncertainty
  rw [e]
  have hm : 0 < max acc 1 := lt_of_lt_of_le one_pos (le_max_right _ _)
  have hmono := rescale_mono (ysub_mono h hsp (by linarith)) ((u + (u + acc)) / 2) (by positivity : 0 < 1 / max acc 1)
  have hX' : (rescaleC ((u + (u + acc)) / 2) (1 / max acc 1) (ySubsegment c u (u + acc))).Extent X := hX
  have h1 := spread_extent solve hs hmono hX'
  have h2 := maxParam_extent solve hmono hX' (B := B) (k := max acc 1 / acc) ?_ hB ?_ ?_
  · dsimp only
    unfold roughness
    have := div_le_div_of_nonneg_right (mul_le_mul_of_nonneg_left h2 (by norm_num : (0 : ℝ) ≤ 2)) (by positivity : (0 : ℝ) ≤ 10 ^ 12)
    linarith
  · simp only [rescaleC, sub_p0, sub_p3]; ring
  · have : (rescaleC ((u + (u + acc)) / 2) (1 / max acc 1) (ySubsegment c u (u + acc))).p3.y -
        (rescaleC ((u + (u + acc)) / 2) (1 / max acc 1) (ySubsegment c u (u + acc))).p0.y = acc / max acc 1 := by
      simp only [rescaleC, sub_p0, sub_p3]; field_simp; ring
    rw [this]
    rw [div_mul_div_comm, mul_comm, div_self (by positivity)]
  · rw [le_div_iff₀ hacc, one_mul]; exact le_max_left _ _

/-! ## Curves that are not flat -/

/-- No leg of the control polygon goes up, or moves to the side by more than `σ` times its height. -/
def Cubic.Steep (c : Cubic) (σ : ℝ) : Prop :=
  |c.p1.x - c.p0.x| ≤ σ * (c.p1.y - c.p0.y) ∧ |c.p2.x - c.p1.x| ≤ σ * (c.p2.y - c.p1.y) ∧ |c.p3.x - c.p2.x| ≤ σ * (c.p3.y - c.p2.y)

theorem Cubic.Steep.deriv {c : Cubic} {σ t : ℝ} (h : c.Steep σ) (t0 : 0 ≤ t) (t1 : t ≤ 1) : |(c.derivAt t).x| ≤ σ * (c.derivAt t).y := by
  obtain ⟨h0, h1, h2⟩ := h
  simp only [Cubic.derivAt, Cubic.deriv, bez2]
  have a : 0 ≤ (1 - t) ^ 2 := sq_nonneg _
  have b : 0 ≤ 2 * (1 - t) * t := mul_nonneg (by linarith) t0
  have d : 0 ≤ t ^ 2 := sq_nonneg _
  rw [abs_le] at h0 h1 h2 ⊢
  constructor
  · nlinarith [mul_nonneg a (by linarith [h0.1] : 0 ≤ (c.p1.x - c.p0.x) + σ * (c.p1.y - c.p0.y)),
      mul_nonneg b (by linarith [h1.1] : 0 ≤ (c.p2.x - c.p1.x) + σ * (c.p2.y - c.p1.y)),
      mul_nonneg d (by linarith [h2.1] : 0 ≤ (c.p3.x - c.p2.x) + σ * (c.p3.y - c.p2.y))]
  · nlinarith [mul_nonneg a (by linarith [h0.2] : 0 ≤ σ * (c.p1.y - c.p0.y) - (c.p1.x - c.p0.x)),
      mul_nonneg b (by linarith [h1.2] : 0 ≤ σ * (c.p2.y - c.p1.y) - (c.p2.x - c.p1.x)),
      mul_nonneg d (by linarith [h2.2] : 0 ≤ σ * (c.p3.y - c.p2.y) - (c.p3.x - c.p2.x))]

/-- A part of a curve that is not flat is not flat. -/
theorem Cubic.Steep.subsegment {c : Cubic} {σ u v : ℝ} (h : c.Steep σ) (u0 : 0 ≤ u) (huv : u ≤ v) (v1 : v ≤ 1) : (c.subsegment u v).Steep σ := by
  have hp : 0 ≤ (v - u) * (1 / 3) := by nlinarith
  refine ⟨?_, ?_, ?_⟩
  · simp only [Cubic.subsegment, add_sub_cancel_left]
    rw [abs_mul, abs_of_nonneg hp, mul_left_comm]
    exact mul_le_mul_of_nonneg_left (h.deriv u0 (huv.trans v1)) hp
  · -- the middle leg is the derivative's blossom
    obtain ⟨h0, h1, h2⟩ := h
    have a : 0 ≤ (1 - u) * (1 - v) := mul_nonneg (by linarith) (by linarith)
    have b : 0 ≤ u * (1 - v) + v * (1 - u) := add_nonneg (mul_nonneg u0 (by linarith)) (mul_nonneg (by linarith) (by linarith))
    have d : 0 ≤ u * v := mul_nonneg u0 (by linarith)
    have ex : (c.subsegment u v).p2.x - (c.subsegment u v).p1.x = (v - u) * ((1 - u) * (1 - v) * (c.p1.x - c.p0.x) + (u * (1 - v) + v * (1 - u)) * (c.p2.x - c.p1.x) +
        u * v * (c.p3.x - c.p2.x)) := by
      simp only [Cubic.subsegment, Cubic.eval, Cubic.derivAt, Cubic.deriv, bez2, bez3]; ring
    have ey : (c.subsegment u v).p2.y - (c.subsegment u v).p1.y = (v - u) * ((1 - u) * (1 - v) * (c.p1.y - c.p0.y) + (u * (1 - v) + v * (1 - u)) * (c.p2.y - c.p1.y) +
        u * v * (c.p3.y - c.p2.y)) := by
      simp only [Cubic.subsegment, Cubic.eval, Cubic.derivAt, Cubic.deriv, bez2, bez3]; ring
    rw [ex, ey, abs_mul, abs_of_nonneg (by linarith : 0 ≤ v - u), mul_left_comm]
    refine mul_le_mul_of_nonneg_left ?_ (by linarith)
    rw [abs_le] at h0 h1 h2 ⊢
    constructor
    · nlinarith [mul_nonneg a (by linarith [h0.1] : 0 ≤ (c.p1.x - c.p0.x) + σ * (c.p1.y - c.p0.y)),
        mul_nonneg b (by linarith [h1.1] : 0 ≤ (c.p2.x - c.p1.x) + σ * (c.p2.y - c.p1.y)),
        mul_nonneg d (by linarith [h2.1] : 0 ≤ (c.p3.x - c.p2.x) + σ * (c.p3.y - c.p2.y))]
    · nlinarith [mul_nonneg a (by linarith [h0.2] : 0 ≤ σ * (c.p1.y - c.p0.y) - (c.p1.x - c.p0.x)),
        mul_nonneg b (by linarith [h1.2] : 0 ≤ σ * (c.p2.y - c.p1.y) - (c.p2.x - c.p1.x)),
        mul_nonneg d (by linarith [h2.2] : 0 ≤ σ * (c.p3.y - c.p2.y) - (c.p3.x - c.p2.x))]
  · simp only [Cubic.subsegment, sub_sub_cancel]
    rw [abs_mul, abs_of_nonneg hp, mul_left_comm]
    exact mul_le_mul_of_nonneg_left (h.deriv (u0.trans huv) v1) hp

theorem Cubic.Steep.extent {c : Cubic} {σ : ℝ} (h : c.Steep σ) : c.Extent (σ * (c.p3.y - c.p0.y)) := by
  obtain ⟨h0, h1, h2⟩ := h
  have n0 := (abs_nonneg _).trans h0
  have n1 := (abs_nonneg _).trans h1
  have n2 := (abs_nonneg _).trans h2
  rw [abs_le] at h0 h1 h2
  refine ⟨?_, ?_, ?_⟩ <;> rw [abs_le] <;> constructor <;> nlinarith

theorem Cubic.Steep.ysub {c : Cubic} {σ u v : ℝ} (h : c.Steep σ) (hm : c.Mono) (hs : c.Spans u v) : (ySubsegment c u v).Steep σ := by
  obtain ⟨a, b, d⟩ := hs
  rw [ySubsegment_eq a b d]
  exact h.subsegment (solveT_spec a (b.trans d)).1 (hm.solveT_le a b d) (solveT_spec (a.trans b) d).2.1

theorem Cubic.Steep.extent_sub {c : Cubic} {σ u v : ℝ} (h : c.Steep σ) (hm : c.Mono) (hs : c.Spans u v) : (ySubsegment c u v).Extent (σ * (v - u)) :=
  (h.ysub hm hs).extent

/-- Curves that are not flat are never compared after a rotation. -/
theorem Cubic.Steep.upright {c0 c1 : Cubic} {σ acc : ℝ} (h : c0.Steep σ) (hm : c0.Mono) (hσ : σ < 16) (hacc : 0 < acc) : Upright acc c0 c1 := by
  intro u v x0 x1 x0' x1' huv a0 a0' _ _
  left
  obtain ⟨e, r, -⟩ := at_solveX hm a0
  obtain ⟨e', -, r'⟩ := at_solveX hm a0'
  have := (h.extent_sub hm ⟨r, by linarith, r'⟩).2.2
  rw [sub_p0, sub_p3] at this
  rw [e, e']
  exact this.trans_lt (mul_lt_mul_of_pos_right hσ (by linarith))

end Verif.Geom
