import Verif.Geom.Bezier
import Verif.Geom.Props
import Mathlib.MeasureTheory.Integral.IntervalIntegral.FundThmCalculus
import Mathlib.Algebra.Polynomial.Roots

/-! # Approximating a cubic by a parabola (`EstParab::from_cubic`): model and claim C66 -/

namespace Verif.Geom

/-- `kurbo::QuadBez`. -/
structure Quad where
  p0 : Pt
  p1 : Pt
  p2 : Pt

/-- `kurbo::QuadBez::eval`. -/
def Quad.eval (q : Quad) (t : ℝ) : Pt := ⟨bez2 q.p0.x q.p1.x q.p2.x t, bez2 q.p0.y q.p1.y q.p2.y t⟩

/-- `kurbo::Point::lerp`. -/
def Pt.lerp (p q : Pt) (t : ℝ) : Pt := ⟨p.x + t * (q.x - p.x), p.y + t * (q.y - p.y)⟩

/-- `kurbo::CubicBez::signed_area`. -/
noncomputable def Cubic.signedArea (c : Cubic) : ℝ :=
  (c.p0.x * (6 * c.p1.y + 3 * c.p2.y + c.p3.y) + 3 * (c.p1.x * (-2 * c.p0.y + c.p2.y + c.p3.y) - c.p2.x * (c.p0.y + c.p1.y - 2 * c.p3.y)) -
    c.p3.x * (c.p0.y + 3 * c.p1.y + 6 * c.p2.y)) * (1 / 20)

/-- `kurbo::Line::signed_area`. -/
noncomputable def lineArea (p q : Pt) : ℝ := (p.x * q.y - p.y * q.x) * (1 / 2)

/-- curve/mod.rs:886-891 (`quad_parameters`). -/
def quadParameters (q : Quad) : Pt × Pt × Pt :=
  (q.p0, ⟨(q.p1.x - q.p0.x) * 2, (q.p1.y - q.p0.y) * 2⟩, ⟨q.p0.x - q.p1.x * 2 + q.p2.x, q.p0.y - q.p1.y * 2 + q.p2.y⟩)

/-- curve/mod.rs:815-829: the coefficients of the equation of the tangency points. -/
noncomputable def tangency (c1 c2 : ℝ) (q : Quad) : ℝ × ℝ × ℝ × ℝ :=
  let params := quadParameters q
  let dp0 := params.2.1
  let dp1 : Pt := ⟨2 * params.2.2.x, 2 * params.2.2.y⟩
  let d0 := c1
  let d1 := 2 * c2
  let dxdt0 := d0 + d1 * params.1.y
  let dxdt1 := d1 * params.2.1.y
  let dxdt2 := d1 * params.2.2.y
  (dp0.y * dxdt0 - dp0.x, dp0.y * dxdt1 + dp1.y * dxdt0 - dp1.x, dp0.y * dxdt2 + dp1.y * dxdt1, dp1.y * dxdt2)

open Classical in
/-- curve/mod.rs:838-846: the update of the bounds for one root. -/
noncomputable def widen (c0 c1 c2 : ℝ) (q : Quad) (d : ℝ × ℝ) (t : ℝ) : ℝ × ℝ :=
  if 0 ≤ t ∧ t ≤ 1 then
    let p := q.eval t
    let x := p.x - (c0 + c1 * p.y + c2 * p.y ^ 2)
    (min d.1 x, max d.2 x)
  else d

/-- curve/mod.rs:806-808. -/
noncomputable def hybrid0 (c : Cubic) : Quad := ⟨c.p0, c.p0.lerp c.p1 (3 / 2), c.p3⟩
noncomputable def hybrid1 (c : Cubic) : Quad := ⟨c.p0, c.p3.lerp c.p2 (3 / 2), c.p3⟩

/-- curve/mod.rs:786-855 (`from_cubic`); `solve` is `solve_cubic_in_unit_interval` (curve/mod.rs:400-455), given the coefficients in increasing
degree. -/
noncomputable def fromCubic (solve : ℝ → ℝ → ℝ → ℝ → List ℝ) (c : Cubic) : EstParab :=
  let area := c.signedArea + lineArea c.p3 c.p0
  let dy := c.p3.y - c.p0.y
  let c2 := -6 * area / dy ^ 3
  let c1 := (c.p3.x - c.p0.x - (c.p3.y ^ 2 - c.p0.y ^ 2) * c2) / dy
  let c0 := c.p0.x - c1 * c.p0.y - c2 * c.p0.y ^ 2
  let d := [hybrid0 c, hybrid1 c].foldl (fun d q =>
    let f := tangency c1 c2 q
    (solve f.1 f.2.1 f.2.2.1 f.2.2.2).foldl (widen c0 c1 c2 q) d) (0, 0)
  ⟨c0, c1, c2, d.1, d.2⟩

/-- What the root finder promises: unless the cubic is zero, every root in the unit interval is found. -/
def FindsRoots (solve : ℝ → ℝ → ℝ → ℝ → List ℝ) : Prop :=
  ∀ f0 f1 f2 f3 : ℝ, ¬ (f0 = 0 ∧ f1 = 0 ∧ f2 = 0 ∧ f3 = 0) → ∀ t, 0 ≤ t → t ≤ 1 → f0 + f1 * t + f2 * t ^ 2 + f3 * t ^ 3 = 0 → t ∈ solve f0 f1 f2 f3

/-! ## Lemmas -/

/-- The horizontal distance of a point of a quadratic Bézier from a parabola. -/
def qerr (c0 c1 c2 : ℝ) (q : Quad) (t : ℝ) : ℝ := (q.eval t).x - (c0 + c1 * (q.eval t).y + c2 * (q.eval t).y ^ 2)

theorem bez2_hasDeriv (a b c t : ℝ) : HasDerivAt (bez2 a b c) (2 * (b - a) + 2 * (a - 2 * b + c) * t) t := by
  have h1 : HasDerivAt (fun t : ℝ => 1 - t) (-1) t := by simpa using (hasDerivAt_id t).const_sub 1
  have h2 : HasDerivAt (fun t : ℝ => t) 1 t := hasDerivAt_id t
  have := (((h1.pow 2).mul_const a).add (((h1.const_mul 2).mul h2).mul_const b)).add ((h2.pow 2).mul_const c)
  refine HasDerivAt.congr_deriv (this.congr_of_eventuallyEq ?_) ?_
  · exact Filter.Eventually.of_forall fun t => by simp [bez2]
  · simp; ring

theorem qerr_hasDeriv (c0 c1 c2 : ℝ) (q : Quad) (t : ℝ) :
    HasDerivAt (qerr c0 c1 c2 q) (-((tangency c1 c2 q).1 + (tangency c1 c2 q).2.1 * t + (tangency c1 c2 q).2.2.1 * t ^ 2 + (tangency c1 c2 q).2.2.2 * t ^ 3)) t := by
  have hx : HasDerivAt (fun t => (q.eval t).x) _ t := bez2_hasDeriv q.p0.x q.p1.x q.p2.x t
  have hy : HasDerivAt (fun t => (q.eval t).y) _ t := bez2_hasDeriv q.p0.y q.p1.y q.p2.y t
  have := hx.sub (((hy.const_mul c1).const_add c0).add ((hy.pow 2).const_mul c2))
  refine HasDerivAt.congr_deriv (this.congr_of_eventuallyEq ?_) ?_
  · exact Filter.Eventually.of_forall fun t => by simp [qerr]
  · simp only [tangency, quadParameters, Quad.eval, bez2]; simp; ring

/-- A differentiable function on the unit interval that is zero at both ends is bounded by its values at the inner critical points. -/
theorem le_of_critical {f f' : ℝ → ℝ} (hf : ∀ t, HasDerivAt f (f' t) t) (h0 : f 0 ≤ 0) (h1 : f 1 ≤ 0) {m : ℝ} (hm : 0 ≤ m)
    (hc : ∀ t, 0 < t → t < 1 → f' t = 0 → f t ≤ m) (t : ℝ) (ht0 : 0 ≤ t) (ht1 : t ≤ 1) : f t ≤ m := by
  have hcont : ContinuousOn f (Set.Icc 0 1) := fun t _ => (hf t).continuousAt.continuousWithinAt
  obtain ⟨u, hu, hmax⟩ := isCompact_Icc.exists_isMaxOn (α := ℝ) (s := Set.Icc (0 : ℝ) 1) ⟨0, le_rfl, zero_le_one⟩ hcont
  have hle : f t ≤ f u := hmax ⟨ht0, ht1⟩
  refine hle.trans ?_
  rcases eq_or_lt_of_le hu.1 with e | e
  · rw [← e]; linarith
  rcases eq_or_lt_of_le hu.2 with e' | e'
  · rw [e']; linarith
  · refine hc u e e' ?_
    have : IsLocalMax f u := hmax.isLocalMax (Icc_mem_nhds e e')
    exact this.hasDerivAt_eq_zero (hf u)

theorem foldl_widen (c0 c1 c2 : ℝ) (q : Quad) (l : List ℝ) : ∀ d : ℝ × ℝ,
    (l.foldl (widen c0 c1 c2 q) d).1 ≤ d.1 ∧ d.2 ≤ (l.foldl (widen c0 c1 c2 q) d).2 ∧
    (∀ t ∈ l, 0 ≤ t → t ≤ 1 → (l.foldl (widen c0 c1 c2 q) d).1 ≤ qerr c0 c1 c2 q t ∧ qerr c0 c1 c2 q t ≤ (l.foldl (widen c0 c1 c2 q) d).2) ∧
    ((l.foldl (widen c0 c1 c2 q) d).1 = d.1 ∨ ∃ t, 0 ≤ t ∧ t ≤ 1 ∧ (l.foldl (widen c0 c1 c2 q) d).1 = qerr c0 c1 c2 q t) ∧
    ((l.foldl (widen c0 c1 c2 q) d).2 = d.2 ∨ ∃ t, 0 ≤ t ∧ t ≤ 1 ∧ (l.foldl (widen c0 c1 c2 q) d).2 = qerr c0 c1 c2 q t) := by
  induction l with
  | nil => intro d; simp
  | cons a l ih =>
    intro d
    rw [List.foldl_cons]
    obtain ⟨h1, h2, h3, h4, h5⟩ := ih (widen c0 c1 c2 q d a)
    have hw : (widen c0 c1 c2 q d a).1 ≤ d.1 ∧ d.2 ≤ (widen c0 c1 c2 q d a).2 ∧
        (0 ≤ a → a ≤ 1 → (widen c0 c1 c2 q d a).1 ≤ qerr c0 c1 c2 q a ∧ qerr c0 c1 c2 q a ≤ (widen c0 c1 c2 q d a).2) ∧
        ((widen c0 c1 c2 q d a).1 = d.1 ∨ ∃ t, 0 ≤ t ∧ t ≤ 1 ∧ (widen c0 c1 c2 q d a).1 = qerr c0 c1 c2 q t) ∧
        ((widen c0 c1 c2 q d a).2 = d.2 ∨ ∃ t, 0 ≤ t ∧ t ≤ 1 ∧ (widen c0 c1 c2 q d a).2 = qerr c0 c1 c2 q t) := by
      unfold widen
      split
      · rename_i ha
        refine ⟨min_le_left _ _, le_max_left _ _, fun _ _ => ⟨min_le_right _ _, le_max_right _ _⟩, ?_, ?_⟩
        · dsimp only
          rcases min_choice d.1 ((q.eval a).x - (c0 + c1 * (q.eval a).y + c2 * (q.eval a).y ^ 2)) with e | e
          · exact .inl e
          · exact .inr ⟨a, ha.1, ha.2, e⟩
        · dsimp only
          rcases max_choice d.2 ((q.eval a).x - (c0 + c1 * (q.eval a).y + c2 * (q.eval a).y ^ 2)) with e | e
          · exact .inl e
          · exact .inr ⟨a, ha.1, ha.2, e⟩
      · rename_i ha
        exact ⟨le_rfl, le_rfl, fun x y => absurd ⟨x, y⟩ ha, .inl rfl, .inl rfl⟩
    obtain ⟨w1, w2, w3, w4, w5⟩ := hw
    refine ⟨h1.trans w1, w2.trans h2, ?_, ?_, ?_⟩
    · intro t ht h0 h1'
      rcases List.mem_cons.1 ht with e | ht
      · subst e
        exact ⟨h1.trans (w3 h0 h1').1, (w3 h0 h1').2.trans h2⟩
      · exact h3 t ht h0 h1'
    · rcases h4 with e | h
      · rw [e]; exact w4
      · exact .inr h
    · rcases h5 with e | h
      · rw [e]; exact w5
      · exact .inr h

/-- The bounds after the loop hold on the whole quadratic. -/
theorem bounds_hold {solve : ℝ → ℝ → ℝ → ℝ → List ℝ} (hs : FindsRoots solve) {c0 c1 c2 : ℝ} {q : Quad} (e0 : qerr c0 c1 c2 q 0 = 0)
    (e1 : qerr c0 c1 c2 q 1 = 0) {dmin dmax : ℝ} (hmin : dmin ≤ 0) (hmax : 0 ≤ dmax)
    (hb : ∀ t ∈ solve (tangency c1 c2 q).1 (tangency c1 c2 q).2.1 (tangency c1 c2 q).2.2.1 (tangency c1 c2 q).2.2.2, 0 ≤ t → t ≤ 1 →
      dmin ≤ qerr c0 c1 c2 q t ∧ qerr c0 c1 c2 q t ≤ dmax) (t : ℝ) (ht0 : 0 ≤ t) (ht1 : t ≤ 1) :
    dmin ≤ qerr c0 c1 c2 q t ∧ qerr c0 c1 c2 q t ≤ dmax := by
  by_cases hz : (tangency c1 c2 q).1 = 0 ∧ (tangency c1 c2 q).2.1 = 0 ∧ (tangency c1 c2 q).2.2.1 = 0 ∧ (tangency c1 c2 q).2.2.2 = 0
  · have : qerr c0 c1 c2 q t = 0 := by
      have h1 := mono_of_deriv (f := qerr c0 c1 c2 q) (qerr_hasDeriv c0 c1 c2 q) (a := 0) (b := 1) (fun u _ _ => by
        rw [hz.1, hz.2.1, hz.2.2.1, hz.2.2.2]; norm_num) le_rfl ht0 ht1
      have h2 := mono_of_deriv (f := qerr c0 c1 c2 q) (qerr_hasDeriv c0 c1 c2 q) (a := 0) (b := 1) (fun u _ _ => by
        rw [hz.1, hz.2.1, hz.2.2.1, hz.2.2.2]; norm_num) ht0 ht1 le_rfl
      rw [e0] at h1
      rw [e1] at h2
      exact le_antisymm h2 h1
    rw [this]; exact ⟨hmin, hmax⟩
  · constructor
    · have := le_of_critical (f := fun t => -qerr c0 c1 c2 q t) (fun t => (qerr_hasDeriv c0 c1 c2 q t).neg) (by simp [e0]) (by simp [e1])
        (m := -dmin) (by linarith) (fun u h0 h1 hc => by
          have := (hb u (hs _ _ _ _ hz u h0.le h1.le (by linarith)) h0.le h1.le).1
          linarith) t ht0 ht1
      linarith
    · exact le_of_critical (qerr_hasDeriv c0 c1 c2 q) e0.le e1.le hmax (fun u h0 h1 hc =>
        (hb u (hs _ _ _ _ hz u h0.le h1.le (by linarith)) h0.le h1.le).2) t ht0 ht1

theorem fromCubic_ends (solve : ℝ → ℝ → ℝ → ℝ → List ℝ) (c : Cubic) (h : c.p0.y ≠ c.p3.y) :
    (fromCubic solve c).eval c.p0.y = c.p0.x ∧ (fromCubic solve c).eval c.p3.y = c.p3.x := by
  have hd : c.p3.y - c.p0.y ≠ 0 := sub_ne_zero.2 h.symm
  simp only [fromCubic, EstParab.eval]
  constructor
  · ring
  · generalize -6 * (c.signedArea + lineArea c.p3 c.p0) / (c.p3.y - c.p0.y) ^ 3 = k
    field_simp
    ring

theorem hybrid_ends (c : Cubic) : (hybrid0 c).eval 0 = c.p0 ∧ (hybrid0 c).eval 1 = c.p3 ∧ (hybrid1 c).eval 0 = c.p0 ∧ (hybrid1 c).eval 1 = c.p3 := by
  refine ⟨?_, ?_, ?_, ?_⟩ <;> ext <;> simp only [hybrid0, hybrid1, Quad.eval, bez2] <;> ring

/-- The cubic is the mixture of the two hybrid quadratics. -/
theorem hybrid_mix (c : Cubic) (t : ℝ) : c.eval t = ((hybrid0 c).eval t).affine ((hybrid1 c).eval t) t := by
  ext <;> simp only [hybrid0, hybrid1, Quad.eval, bez2, Cubic.eval, bez3, Pt.affine, Pt.lerp] <;> ring

theorem fromCubic_bounds (solve : ℝ → ℝ → ℝ → ℝ → List ℝ) (hs : FindsRoots solve) (c : Cubic) (h : c.p0.y ≠ c.p3.y) :
    (fromCubic solve c).dmin ≤ 0 ∧ 0 ≤ (fromCubic solve c).dmax ∧
    (∀ q, q = hybrid0 c ∨ q = hybrid1 c → ∀ t, 0 ≤ t → t ≤ 1 →
      (fromCubic solve c).eval (q.eval t).y + (fromCubic solve c).dmin ≤ (q.eval t).x ∧
      (q.eval t).x ≤ (fromCubic solve c).eval (q.eval t).y + (fromCubic solve c).dmax) ∧
    (∃ q t, (q = hybrid0 c ∨ q = hybrid1 c) ∧ 0 ≤ t ∧ t ≤ 1 ∧ (fromCubic solve c).dmin = (q.eval t).x - (fromCubic solve c).eval (q.eval t).y) ∧
    (∃ q t, (q = hybrid0 c ∨ q = hybrid1 c) ∧ 0 ≤ t ∧ t ≤ 1 ∧ (fromCubic solve c).dmax = (q.eval t).x - (fromCubic solve c).eval (q.eval t).y) := by
  obtain ⟨g0, g1⟩ := fromCubic_ends solve c h
  obtain ⟨k0, k1, k2, k3⟩ := hybrid_ends c
  obtain ⟨c0, hc0⟩ : ∃ x, x = (fromCubic solve c).c0 := ⟨_, rfl⟩
  obtain ⟨c1, hc1⟩ : ∃ x, x = (fromCubic solve c).c1 := ⟨_, rfl⟩
  obtain ⟨c2, hc2⟩ : ∃ x, x = (fromCubic solve c).c2 := ⟨_, rfl⟩
  have hev : ∀ y, (fromCubic solve c).eval y = c0 + c1 * y + c2 * y ^ 2 := fun y => by
    simp only [EstParab.eval]; rw [← hc0, ← hc1, ← hc2]; ring
  have herr : ∀ q t, (q.eval t).x - (fromCubic solve c).eval (q.eval t).y = qerr c0 c1 c2 q t := fun q t => by rw [hev]; rfl
  have z0 : ∀ q, q = hybrid0 c ∨ q = hybrid1 c → qerr c0 c1 c2 q 0 = 0 ∧ qerr c0 c1 c2 q 1 = 0 := by
    rintro q (rfl | rfl)
    · rw [← herr, ← herr, k0, k1, g0, g1]; simp
    · rw [← herr, ← herr, k2, k3, g0, g1]; simp
  obtain ⟨l0, hl0⟩ : ∃ l, l = solve (tangency c1 c2 (hybrid0 c)).1 (tangency c1 c2 (hybrid0 c)).2.1 (tangency c1 c2 (hybrid0 c)).2.2.1 (tangency c1 c2 (hybrid0 c)).2.2.2 := ⟨_, rfl⟩
  obtain ⟨l1, hl1⟩ : ∃ l, l = solve (tangency c1 c2 (hybrid1 c)).1 (tangency c1 c2 (hybrid1 c)).2.1 (tangency c1 c2 (hybrid1 c)).2.2.1 (tangency c1 c2 (hybrid1 c)).2.2.2 := ⟨_, rfl⟩
  obtain ⟨d0, hd0⟩ : ∃ d, d = l0.foldl (widen c0 c1 c2 (hybrid0 c)) (0, 0) := ⟨_, rfl⟩
  obtain ⟨d1, hd1⟩ : ∃ d, d = l1.foldl (widen c0 c1 c2 (hybrid1 c)) d0 := ⟨_, rfl⟩
  have hmin : (fromCubic solve c).dmin = d1.1 := by
    rw [hd1, hd0, hl0, hl1, hc0, hc1, hc2]; rfl
  have hmax : (fromCubic solve c).dmax = d1.2 := by
    rw [hd1, hd0, hl0, hl1, hc0, hc1, hc2]; rfl
  obtain ⟨a1, a2, a3, a4, a5⟩ := foldl_widen c0 c1 c2 (hybrid0 c) l0 (0, 0)
  rw [← hd0] at a1 a2 a3 a4 a5
  obtain ⟨b1, b2, b3, b4, b5⟩ := foldl_widen c0 c1 c2 (hybrid1 c) l1 d0
  rw [← hd1] at b1 b2 b3 b4 b5
  have n0 : d1.1 ≤ 0 := b1.trans a1
  have p0 : 0 ≤ d1.2 := a2.trans b2
  rw [hmin, hmax]
  refine ⟨n0, p0, ?_, ?_, ?_⟩
  · intro q hq t h0 h1
    have : d1.1 ≤ qerr c0 c1 c2 q t ∧ qerr c0 c1 c2 q t ≤ d1.2 := by
      refine bounds_hold hs (z0 q hq).1 (z0 q hq).2 n0 p0 ?_ t h0 h1
      rcases hq with rfl | rfl
      · rw [← hl0]
        intro u hu u0 u1
        have := a3 u hu u0 u1
        exact ⟨b1.trans this.1, this.2.trans b2⟩
      · rw [← hl1]; exact b3
    rw [← herr] at this
    constructor <;> linarith [this.1, this.2]
  · rcases b4 with e | ⟨t, t0, t1, e⟩
    · rcases a4 with e' | ⟨t, t0, t1, e'⟩
      · refine ⟨hybrid0 c, 0, .inl rfl, le_rfl, zero_le_one, ?_⟩
        rw [herr, (z0 _ (.inl rfl)).1, e, e']
      · exact ⟨hybrid0 c, t, .inl rfl, t0, t1, by rw [herr, e, e']⟩
    · exact ⟨hybrid1 c, t, .inr rfl, t0, t1, by rw [herr, e]⟩
  · rcases b5 with e | ⟨t, t0, t1, e⟩
    · rcases a5 with e' | ⟨t, t0, t1, e'⟩
      · refine ⟨hybrid0 c, 0, .inl rfl, le_rfl, zero_le_one, ?_⟩
        rw [herr, (z0 _ (.inl rfl)).1, e, e']
      · exact ⟨hybrid0 c, t, .inl rfl, t0, t1, by rw [herr, e, e']⟩
    · exact ⟨hybrid1 c, t, .inr rfl, t0, t1, by rw [herr, e]⟩

theorem cube_le {t : ℝ} (h0 : 0 ≤ t) (h1 : t ≤ 1) : 0 ≤ (t * (1 - t)) ^ 3 ∧ (t * (1 - t)) ^ 3 ≤ 1 / 64 := by
  have g0 : 0 ≤ t * (1 - t) := mul_nonneg h0 (by linarith)
  have g1 : t * (1 - t) ≤ 1 / 4 := by nlinarith [sq_nonneg (t - 1 / 2)]
  refine ⟨pow_nonneg g0 3, ?_⟩
  calc (t * (1 - t)) ^ 3 ≤ (1 / 4) ^ 3 := pow_le_pow_left₀ g0 g1 3
    _ = 1 / 64 := by norm_num

/-- A root finder that keeps the promise exists. -/
theorem findsRoots_exists : ∃ solve, FindsRoots solve := by
  classical
  refine ⟨fun f0 f1 f2 f3 => ((Polynomial.C f0 + Polynomial.C f1 * Polynomial.X + Polynomial.C f2 * Polynomial.X ^ 2 + Polynomial.C f3 * Polynomial.X ^ 3 :
    Polynomial ℝ).roots).toList, fun f0 f1 f2 f3 hz t _ _ he => ?_⟩
  rw [Multiset.mem_toList, Polynomial.mem_roots]
  · simp [Polynomial.IsRoot]; exact he
  · intro h
    apply hz
    have h0 := congrArg (fun p => Polynomial.coeff p 0) h
    have h1 := congrArg (fun p => Polynomial.coeff p 1) h
    have h2 := congrArg (fun p => Polynomial.coeff p 2) h
    have h3 := congrArg (fun p => Polynomial.coeff p 3) h
    simp [Polynomial.coeff_X, Polynomial.coeff_C] at h0 h1 h2 h3
    exact ⟨h0, h1, h2, h3⟩

/-! ## C66 -/

/-- **C66.** The estimating parabola passes through both ends of the curve, and the horizontal differences between the curve and the parabola
cancel (the signed area between them is zero). -/
theorem C66_ends_area (solve : ℝ → ℝ → ℝ → ℝ → List ℝ) (c : Cubic) (h : c.p0.y ≠ c.p3.y) :
    (fromCubic solve c).eval c.p0.y = c.p0.x ∧ (fromCubic solve c).eval c.p3.y = c.p3.x ∧
    ∫ t in (0 : ℝ)..1, ((c.eval t).x - (fromCubic solve c).eval (c.eval t).y) * (c.derivAt t).y = 0 := by
  obtain ⟨g0, g1⟩ := fromCubic_ends solve c h
  refine ⟨g0, g1, ?_⟩
  have hd : c.p3.y - c.p0.y ≠ 0 := sub_ne_zero.2 h.symm
  obtain ⟨a, ha⟩ : ∃ x, x = (fromCubic solve c).c0 := ⟨_, rfl⟩
  obtain ⟨b, hb⟩ : ∃ x, x = (fromCubic solve c).c1 := ⟨_, rfl⟩
  obtain ⟨k, hk⟩ : ∃ x, x = (fromCubic solve c).c2 := ⟨_, rfl⟩
  have hk' : k * (c.p3.y - c.p0.y) ^ 3 = -6 * (c.signedArea + lineArea c.p3 c.p0) := by
    rw [hk]; simp only [fromCubic]; field_simp
  simp only [EstParab.eval] at g0 g1 ⊢
  rw [← ha, ← hb, ← hk] at g0 g1 ⊢
  -- coefficients of x and of the vertical speed
  obtain ⟨x0, hx0⟩ : ∃ x, x = c.p0.x := ⟨_, rfl⟩
  obtain ⟨x1, hx1⟩ : ∃ x, x = 3 * (c.p1.x - c.p0.x) := ⟨_, rfl⟩
  obtain ⟨x2, hx2⟩ : ∃ x, x = 3 * (c.p2.x - 2 * c.p1.x + c.p0.x) := ⟨_, rfl⟩
  obtain ⟨x3, hx3⟩ : ∃ x, x = c.p3.x - 3 * c.p2.x + 3 * c.p1.x - c.p0.x := ⟨_, rfl⟩
  obtain ⟨y1, hy1⟩ : ∃ x, x = 3 * (c.p1.y - c.p0.y) := ⟨_, rfl⟩
  obtain ⟨y2, hy2⟩ : ∃ x, x = 3 * (c.p2.y - 2 * c.p1.y + c.p0.y) := ⟨_, rfl⟩
  obtain ⟨y3, hy3⟩ : ∃ x, x = c.p3.y - 3 * c.p2.y + 3 * c.p1.y - c.p0.y := ⟨_, rfl⟩
  have hX : ∀ t, (c.eval t).x = x0 + x1 * t + x2 * t ^ 2 + x3 * t ^ 3 := fun t => by
    rw [hx0, hx1, hx2, hx3]; simp only [Cubic.eval, bez3]; ring
  have hY : ∀ t, (c.derivAt t).y = y1 + 2 * y2 * t + 3 * y3 * t ^ 2 := fun t => by
    rw [hy1, hy2, hy3]; simp only [Cubic.derivAt, Cubic.deriv, bez2]; ring
  -- an antiderivative
  have hF : ∀ t ∈ Set.uIcc (0 : ℝ) 1, HasDerivAt (fun t => (x0 * y1 * t + (x0 * (2 * y2) + x1 * y1) / 2 * t ^ 2 + (x0 * (3 * y3) + x1 * (2 * y2) + x2 * y1) / 3 * t ^ 3 +
      (x1 * (3 * y3) + x2 * (2 * y2) + x3 * y1) / 4 * t ^ 4 + (x2 * (3 * y3) + x3 * (2 * y2)) / 5 * t ^ 5 + x3 * (3 * y3) / 6 * t ^ 6) -
      (a * (c.eval t).y + b / 2 * (c.eval t).y ^ 2 + k / 3 * (c.eval t).y ^ 3))
      (((c.eval t).x - (a + b * (c.eval t).y + k * (c.eval t).y * (c.eval t).y)) * (c.derivAt t).y) t := by
    intro t _
    have hy := c.hasDeriv_y t
    have id := hasDerivAt_id t
    have p1 := ((((((id.const_mul (x0 * y1)).add ((id.pow 2).const_mul ((x0 * (2 * y2) + x1 * y1) / 2))).add
      ((id.pow 3).const_mul ((x0 * (3 * y3) + x1 * (2 * y2) + x2 * y1) / 3))).add ((id.pow 4).const_mul ((x1 * (3 * y3) + x2 * (2 * y2) + x3 * y1) / 4))).add
      ((id.pow 5).const_mul ((x2 * (3 * y3) + x3 * (2 * y2)) / 5))).add ((id.pow 6).const_mul (x3 * (3 * y3) / 6)))
    have p2 := ((hy.const_mul a).add ((hy.pow 2).const_mul (b / 2))).add ((hy.pow 3).const_mul (k / 3))
    refine HasDerivAt.congr_deriv ((p1.sub p2).congr_of_eventuallyEq (Filter.Eventually.of_forall fun t => by simp)) ?_
    rw [hX, hY]
    simp
    ring
  have hint : IntervalIntegrable (fun t => ((c.eval t).x - (a + b * (c.eval t).y + k * (c.eval t).y * (c.eval t).y)) * (c.derivAt t).y) MeasureTheory.volume 0 1 := by
    apply Continuous.intervalIntegrable
    have cx := c.cont_x
    have cy := c.cont_y
    have cd : Continuous fun t => (c.derivAt t).y := by
      simp only [Cubic.derivAt, bez2]; fun_prop
    fun_prop
  rw [intervalIntegral.integral_eq_sub_of_hasDerivAt hF hint]
  rw [c.eval_zero, c.eval_one]
  simp only [Cubic.signedArea, lineArea] at hk'
  rw [hx0, hx1, hx2, hx3, hy1, hy2, hy3]
  linear_combination (-(c.p3.y - c.p0.y) / 2) * g0 + (-(c.p3.y - c.p0.y) / 2) * g1 + (1 / 6) * hk'

/-- **C66.** The error bounds are exactly right for the two hybrid quadratics: valid on both of them, and each attained. -/
theorem C66_hybrid_bounds (solve : ℝ → ℝ → ℝ → ℝ → List ℝ) (hs : FindsRoots solve) (c : Cubic) (h : c.p0.y ≠ c.p3.y) :
    (fromCubic solve c).dmin ≤ 0 ∧ 0 ≤ (fromCubic solve c).dmax ∧
    IsLeast {e | ∃ q t, (q = hybrid0 c ∨ q = hybrid1 c) ∧ 0 ≤ t ∧ t ≤ 1 ∧ e = (q.eval t).x - (fromCubic solve c).eval (q.eval t).y} (fromCubic solve c).dmin ∧
    IsGreatest {e | ∃ q t, (q = hybrid0 c ∨ q = hybrid1 c) ∧ 0 ≤ t ∧ t ≤ 1 ∧ e = (q.eval t).x - (fromCubic solve c).eval (q.eval t).y} (fromCubic solve c).dmax := by
  obtain ⟨h1, h2, h3, h4, h5⟩ := fromCubic_bounds solve hs c h
  refine ⟨h1, h2, ⟨h4, ?_⟩, h5, ?_⟩
  · rintro e ⟨q, t, hq, t0, t1, rfl⟩
    linarith [(h3 q hq t t0 t1).1]
  · rintro e ⟨q, t, hq, t0, t1, rfl⟩
    linarith [(h3 q hq t t0 t1).2]

/-- How much the two hybrid quadratics differ: the heights of their middle control points. -/
noncomputable def hybridGap (c : Cubic) : ℝ := (hybrid0 c).p1.y - (hybrid1 c).p1.y

/-- Without monotonicity the bounds hold for the curve itself up to `|c2| gap² / 16`, on one side only: below if `c2 < 0` and above if
`c2 > 0`. For descending curves see `C66_bounds`. -/
theorem fromCubic_slack (solve : ℝ → ℝ → ℝ → ℝ → List ℝ) (hs : FindsRoots solve) (c : Cubic) (h : c.p0.y ≠ c.p3.y) (t : ℝ) (t0 : 0 ≤ t) (t1 : t ≤ 1) :
    (fromCubic solve c).eval (c.eval t).y + (fromCubic solve c).dmin - max 0 (-(fromCubic solve c).c2) * hybridGap c ^ 2 / 16 ≤ (c.eval t).x ∧
    (c.eval t).x ≤ (fromCubic solve c).eval (c.eval t).y + (fromCubic solve c).dmax + max 0 (fromCubic solve c).c2 * hybridGap c ^ 2 / 16 := by
  obtain ⟨_, _, h3, _, _⟩ := fromCubic_bounds solve hs c h
  have e0 := h3 _ (.inl rfl) t t0 t1
  have e1 := h3 _ (.inr rfl) t t0 t1
  have hmix := hybrid_mix c t
  have hx := congrArg Pt.x hmix
  have hy := congrArg Pt.y hmix
  simp only [Pt.affine] at hx hy
  have hgap : ((hybrid0 c).eval t).y - ((hybrid1 c).eval t).y = 2 * t * (1 - t) * hybridGap c := by
    simp only [hybridGap, hybrid0, hybrid1, Quad.eval, bez2]; ring
  obtain ⟨cu0, cu1⟩ := cube_le t0 t1
  obtain ⟨a, ha⟩ : ∃ x, x = (fromCubic solve c).c0 := ⟨_, rfl⟩
  obtain ⟨b, hb⟩ : ∃ x, x = (fromCubic solve c).c1 := ⟨_, rfl⟩
  obtain ⟨k, hk⟩ : ∃ x, x = (fromCubic solve c).c2 := ⟨_, rfl⟩
  simp only [EstParab.eval] at e0 e1 ⊢
  rw [← ha, ← hb, ← hk] at e0 e1 ⊢
  generalize (fromCubic solve c).dmin = m at *
  generalize (fromCubic solve c).dmax = M at *
  generalize ((hybrid0 c).eval t).x = X0 at *
  generalize ((hybrid1 c).eval t).x = X1 at *
  generalize ((hybrid0 c).eval t).y = Y0 at *
  generalize ((hybrid1 c).eval t).y = Y1 at *
  generalize hybridGap c = g at *
  rw [hx, hy]
  have hid : k * ((1 - t) * (Y0 * Y0) + t * (Y1 * Y1)) - k * (((1 - t) * Y0 + t * Y1) * ((1 - t) * Y0 + t * Y1)) = k * (4 * (t * (1 - t)) ^ 3 * g ^ 2) := by
    have : (1 - t) * (Y0 * Y0) + t * (Y1 * Y1) - ((1 - t) * Y0 + t * Y1) * ((1 - t) * Y0 + t * Y1) = t * (1 - t) * (Y0 - Y1) ^ 2 := by ring
    rw [hgap] at this
    linear_combination k * this
  have hw0 := mul_nonneg cu0 (sq_nonneg g)
  have hw1 := mul_le_mul_of_nonneg_right cu1 (sq_nonneg g)
  have s0 : 0 ≤ 1 - t := by linarith
  have A := mul_le_mul_of_nonneg_left e0.1 s0
  have B := mul_le_mul_of_nonneg_left e1.1 t0
  have C := mul_le_mul_of_nonneg_left e0.2 s0
  have D := mul_le_mul_of_nonneg_left e1.2 t0
  rcases le_total 0 k with hk0 | hk0
  · rw [max_eq_left (by linarith : -k ≤ 0), max_eq_right hk0]
    have K1 := mul_nonneg hk0 hw0
    have K2 := mul_le_mul_of_nonneg_left hw1 hk0
    constructor <;> linarith
  · rw [max_eq_right (by linarith : 0 ≤ -k), max_eq_left hk0]
    have K1 := mul_nonpos_of_nonpos_of_nonneg hk0 hw0
    have K2 := mul_le_mul_of_nonpos_left hw1 hk0
    constructor <;> linarith

/-- Non-vacuity of C66: a root finder exists and an S-shaped curve has different end heights. -/
example : ∃ solve, FindsRoots solve ∧ sCurve.p0.y ≠ sCurve.p3.y := by
  obtain ⟨s, h⟩ := findsRoots_exists
  exact ⟨s, h, by show (0 : ℝ) ≠ 3; norm_num⟩

end Verif.Geom
