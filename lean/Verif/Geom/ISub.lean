import Verif.Geom.IGrow
import Verif.Geom.Pieces

/-! Lemmas for `intersect_cubics` (no claims): parts of curves, and rescaled curves. -/

namespace Verif.Geom
open Verif.Curve

/-- The heights `y0 ≤ y1` are in the range of the curve. -/
def Cubic.Spans (c : Cubic) (y0 y1 : ℝ) : Prop := c.p0.y ≤ y0 ∧ y0 ≤ y1 ∧ y1 ≤ c.p3.y

theorem Cubic.Spans.sub {c : Cubic} {y0 y1 u v : ℝ} (h : c.Spans y0 y1) (h0 : y0 ≤ u) (h1 : u ≤ v) (h2 : v ≤ y1) : c.Spans u v :=
  ⟨h.1.trans h0, h1, h2.trans h.2.2⟩

theorem solveX_eval {c : Cubic} (h : c.Mono) {t : ℝ} (t0 : 0 ≤ t) (t1 : t ≤ 1) : solveX c (c.eval t).y = (c.eval t).x := by
  rw [solveX, h.solveT_unique t0 t1 rfl]

theorem eval_solveT {c : Cubic} {y : ℝ} (h0 : c.p0.y ≤ y) (h1 : y ≤ c.p3.y) : c.eval (solveT c y) = ⟨solveX c y, y⟩ :=
  Pt.ext rfl (solveT_spec h0 h1).2.2

/-- Every point of the curve in the range is on the part. -/
theorem sub_pt {c : Cubic} (h : c.Mono) {y0 y1 y : ℝ} (hs : c.Spans y0 y1) (hy0 : y0 ≤ y) (hy1 : y ≤ y1) :
    ∃ s, 0 ≤ s ∧ s ≤ 1 ∧ (ySubsegment c y0 y1).eval s = ⟨solveX c y, y⟩ := by
  obtain ⟨a, b, d⟩ := hs
  rw [ySubsegment_eq a b d]
  have e := eval_solveT (c := c) (a.trans hy0) (hy1.trans d)
  have l1 := h.solveT_le a hy0 (hy1.trans d)
  have l2 := h.solveT_le (a.trans hy0) hy1 d
  rcases eq_or_lt_of_le (l1.trans l2) with he | hlt
  · refine ⟨0, le_rfl, zero_le_one, ?_⟩
    rw [Cubic.subsegment_eval, ← e]
    congr 1
    linarith
  · have hp : 0 < solveT c y1 - solveT c y0 := sub_pos.2 hlt
    refine ⟨(solveT c y - solveT c y0) / (solveT c y1 - solveT c y0), div_nonneg (by linarith) hp.le, by rw [div_le_one hp]; linarith, ?_⟩
    rw [Cubic.subsegment_eval, ← e]
    congr 1
    rw [div_mul_cancel₀ _ hp.ne']; ring

/-- Every point of the part is a point of the curve in the range. -/
theorem sub_on {c : Cubic} (h : c.Mono) {y0 y1 s : ℝ} (hs : c.Spans y0 y1) (s0 : 0 ≤ s) (s1 : s ≤ 1) :
    y0 ≤ ((ySubsegment c y0 y1).eval s).y ∧ ((ySubsegment c y0 y1).eval s).y ≤ y1 ∧
      ((ySubsegment c y0 y1).eval s).x = solveX c ((ySubsegment c y0 y1).eval s).y := by
  obtain ⟨a, b, d⟩ := hs
  rw [ySubsegment_eq a b d, Cubic.subsegment_eval]
  have l := h.solveT_le a b d
  obtain ⟨p, q, e⟩ := solveT_spec a (b.trans d)
  obtain ⟨p', q', e'⟩ := solveT_spec (a.trans b) d
  have m1 : solveT c y0 ≤ solveT c y0 + s * (solveT c y1 - solveT c y0) := by
    have := mul_nonneg s0 (sub_nonneg.2 l); linarith
  have m2 : solveT c y0 + s * (solveT c y1 - solveT c y0) ≤ solveT c y1 := by
    have := mul_nonneg (sub_nonneg.2 s1) (sub_nonneg.2 l); linarith
  refine ⟨?_, ?_, (solveX_eval h (p.trans m1) (m2.trans q')).symm⟩
  · have := h.mono p m1 (m2.trans q'); rwa [e] at this
  · have := h.mono (p.trans m1) m2 q'; rwa [e'] at this

theorem sub_p0 (c : Cubic) (y0 y1 : ℝ) : (ySubsegment c y0 y1).p0 = ⟨solveX c y0, y0⟩ := rfl
theorem sub_p3 (c : Cubic) (y0 y1 : ℝ) : (ySubsegment c y0 y1).p3 = ⟨solveX c y1, y1⟩ := rfl

theorem ysub_mono {c : Cubic} (h : c.Mono) {y0 y1 : ℝ} (hs : c.Spans y0 y1) (hlt : y0 < y1) : (ySubsegment c y0 y1).Mono := by
  refine ⟨hlt, fun t t0 t1 => ?_⟩
  obtain ⟨a, b, d⟩ := hs
  have l := h.solveT_lt a hlt d
  obtain ⟨p, q, e⟩ := solveT_spec a (b.trans d)
  obtain ⟨p', q', e'⟩ := solveT_spec (a.trans b) d
  rw [ySubsegment_eq a b d, sub_derivAt]
  refine mul_nonneg (by linarith) (h.2 _ ?_ ?_)
  · have := mul_nonneg t0 (sub_nonneg.2 l.le); linarith
  · have := mul_nonneg (sub_nonneg.2 t1) (sub_nonneg.2 l.le); linarith

theorem ysub_solveX {c : Cubic} (h : c.Mono) {y0 y1 y : ℝ} (hs : c.Spans y0 y1) (hlt : y0 < y1) (hy0 : y0 ≤ y) (hy1 : y ≤ y1) :
    solveX (ySubsegment c y0 y1) y = solveX c y := by
  obtain ⟨s, a, b, e⟩ := sub_pt h hs hy0 hy1
  have := solveX_eval (ysub_mono h hs hlt) a b
  rw [e] at this
  exact this

theorem box_bounds {c : Cubic} (h : c.Mono) {y0 y1 y : ℝ} (hs : c.Spans y0 y1) (hy0 : y0 ≤ y) (hy1 : y ≤ y1) :
    (ySubsegment c y0 y1).bboxMin ≤ solveX c y ∧ solveX c y ≤ (ySubsegment c y0 y1).bboxMax := by
  obtain ⟨s, a, b, e⟩ := sub_pt h hs hy0 hy1
  have hm : solveX c y ∈ (fun t => ((ySubsegment c y0 y1).eval t).x) '' Set.Icc 0 1 := ⟨s, ⟨a, b⟩, by dsimp only; rw [e]⟩
  exact ⟨(Cubic.bboxMin_least _).2 hm, (Cubic.bboxMax_greatest _).2 hm⟩

theorem box_attained {c : Cubic} (h : c.Mono) {y0 y1 : ℝ} (hs : c.Spans y0 y1) :
    (∃ y, y0 ≤ y ∧ y ≤ y1 ∧ solveX c y = (ySubsegment c y0 y1).bboxMin) ∧ ∃ y, y0 ≤ y ∧ y ≤ y1 ∧ solveX c y = (ySubsegment c y0 y1).bboxMax := by
  obtain ⟨⟨s, hs1, e⟩, _⟩ := Cubic.bboxMin_least (ySubsegment c y0 y1)
  obtain ⟨⟨s', hs1', e'⟩, _⟩ := Cubic.bboxMax_greatest (ySubsegment c y0 y1)
  obtain ⟨a, b, d⟩ := sub_on h hs hs1.1 hs1.2
  obtain ⟨a', b', d'⟩ := sub_on h hs hs1'.1 hs1'.2
  exact ⟨⟨_, a, b, d.symm.trans e⟩, ⟨_, a', b', d'.symm.trans e'⟩⟩

/-! ### Rescaling -/

theorem rescale_eval (mid k : ℝ) (c : Cubic) (t : ℝ) : (rescaleC mid k c).eval t = ⟨(c.eval t).x, ((c.eval t).y - mid) * k⟩ := by
  ext <;> simp only [rescaleC, Cubic.eval, bez3] <;> ring

theorem rescale_derivAt (mid k : ℝ) (c : Cubic) (t : ℝ) : ((rescaleC mid k c).derivAt t).y = (c.derivAt t).y * k := by
  simp only [rescaleC, Cubic.derivAt, Cubic.deriv, bez2]; ring

theorem rescale_mono {c : Cubic} (h : c.Mono) (mid : ℝ) {k : ℝ} (hk : 0 < k) : (rescaleC mid k c).Mono := by
  refine ⟨?_, fun t t0 t1 => ?_⟩
  · show (c.p0.y - mid) * k < (c.p3.y - mid) * k
    have := h.1
    exact mul_lt_mul_of_pos_right (by linarith) hk
  · rw [rescale_derivAt]; exact mul_nonneg (h.2 t t0 t1) hk.le

theorem sub_eval (p q : EstParab) (t : ℝ) : (q.sub p).eval t = q.eval t - p.eval t := by
  simp only [EstParab.sub, EstParab.eval]; ring

/-- The estimate of the difference is right, and its lower bound is not above its upper bound. -/
theorem diffEst_ok (solve : ℝ → ℝ → ℝ → ℝ → List ℝ) (hs : FindsRoots solve) {c0 c1 : Cubic} (h0 : c0.Mono) (h1 : c1.Mono) {y0 y1 : ℝ}
    (s0 : c0.Spans y0 y1) (s1 : c1.Spans y0 y1) (hlt : y0 < y1) {y : ℝ} (hy0 : y0 ≤ y) (hy1 : y ≤ y1) :
    let d := diffEst solve (ySubsegment c0 y0 y1) (ySubsegment c1 y0 y1) y0 y1
    let q := d.eval ((y - (y0 + y1) / 2) * (1 / max (y1 - y0) 1))
    q + d.dmin ≤ solveX c1 y - solveX c0 y ∧ solveX c1 y - solveX c0 y ≤ q + d.dmax := by
  intro d q
  have hk : 0 < 1 / max (y1 - y0) 1 := by positivity
  obtain ⟨t0, a0, b0, e0⟩ := sub_pt h0 s0 hy0 hy1
  obtain ⟨t1, a1, b1, e1⟩ := sub_pt h1 s1 hy0 hy1
  have k0 := C66_bounds solve hs _ (rescale_mono (ysub_mono h0 s0 hlt) ((y0 + y1) / 2) hk) t0 a0 b0
  have k1 := C66_bounds solve hs _ (rescale_mono (ysub_mono h1 s1 hlt) ((y0 + y1) / 2) hk) t1 a1 b1
  rw [rescale_eval, e0] at k0
  rw [rescale_eval, e1] at k1
  dsimp only at k0 k1
  obtain ⟨f0, hf0⟩ : ∃ f, f = fromCubic solve (rescaleC ((y0 + y1) / 2) (1 / max (y1 - y0) 1) (ySubsegment c0 y0 y1)) := ⟨_, rfl⟩
  obtain ⟨f1, hf1⟩ : ∃ f, f = fromCubic solve (rescaleC ((y0 + y1) / 2) (1 / max (y1 - y0) 1) (ySubsegment c1 y0 y1)) := ⟨_, rfl⟩
  rw [← hf0] at k0
  rw [← hf1] at k1
  have hd : d = paddedDiff f0 f1 := by rw [hf0, hf1]; rfl
  obtain ⟨err, herr⟩ : ∃ e, e = max f0.maxParam f1.maxParam * (1 / 10 ^ 12) := ⟨_, rfl⟩
  have herr0 : 0 ≤ err := by
    rw [herr]
    have : 0 ≤ f0.maxParam := by unfold EstParab.maxParam; exact le_max_of_le_right (abs_nonneg _)
    have := this.trans (le_max_left f0.maxParam f1.maxParam)
    positivity
  have hq : q = f1.eval ((y - (y0 + y1) / 2) * (1 / max (y1 - y0) 1)) - f0.eval ((y - (y0 + y1) / 2) * (1 / max (y1 - y0) 1)) := by
    rw [← sub_eval]; simp only [q, hd]; rfl
  have hmin : d.dmin = f1.dmin - f0.dmax - err := by rw [hd, herr]; rfl
  have hmax : d.dmax = f1.dmax - f0.dmin + err := by rw [hd, herr]; rfl
  rw [hq, hmin, hmax]
  constructor <;> linarith [k0.1, k0.2, k1.1, k1.2]

end Verif.Geom
