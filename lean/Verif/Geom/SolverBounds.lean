import Verif.Geom.Solver

/-!
# C92: the bounds of the estimates with the root finder of the code
-/

namespace Verif.Geom

variable {c0 c1 c2 c3 : ℝ}

/-! ## Lemmas -/

/-- A solver that keeps the promise of `kurbo::common::solve_cubic` exists. -/
theorem solvesCubics_exists : ∃ sol, SolvesCubics sol := by
  classical
  refine ⟨fun f0 f1 f2 f3 => ((Polynomial.C f0 + Polynomial.C f1 * Polynomial.X + Polynomial.C f2 * Polynomial.X ^ 2 + Polynomial.C f3 * Polynomial.X ^ 3 :
    Polynomial ℝ).roots).toList, fun f0 f1 f2 f3 hz t => ?_⟩
  rw [Multiset.mem_toList, Polynomial.mem_roots]
  · simp [Polynomial.IsRoot, cubicAt]
  · intro h
    apply hz
    have h0 := congrArg (fun p => Polynomial.coeff p 0) h
    have h1 := congrArg (fun p => Polynomial.coeff p 1) h
    have h2 := congrArg (fun p => Polynomial.coeff p 2) h
    have h3 := congrArg (fun p => Polynomial.coeff p 3) h
    simp [Polynomial.coeff_X, Polynomial.coeff_C] at h0 h1 h2 h3
    exact ⟨h0, h1, h2, h3⟩

/-- For coefficients that are at most 1 the conditions of the theorems hold and little is lost. -/
theorem shortfall_le (h0 : |c0| ≤ 1) (h1 : |c1| ≤ 1) (h2 : |c2| ≤ 1) (h3 : |c3| ≤ 1) :
    (1 + (7 * |c3| + |c2|)) ^ 3 * dropped c0 c1 c2 c3 ≤ 1 / 9 ∧ shortfall c0 c1 c2 c3 ≤ 1 / 10 ^ 5 := by
  have hd : dropped c0 c1 c2 c3 ≤ 2 / 10 ^ 7 := by simpa using dropped_le (c3 := c3) h0 h1 h2
  have hp : (1 + (7 * |c3| + |c2|)) ^ 3 ≤ 9 ^ 3 := by
    gcongr
    linarith
  obtain ⟨V, hV⟩ : ∃ V, V = (1 + (7 * |c3| + |c2|)) ^ 3 * dropped c0 c1 c2 c3 := ⟨_, rfl⟩
  have hV1 : V ≤ (1 / 80) ^ 2 := by
    rw [hV]
    calc (1 + (7 * |c3| + |c2|)) ^ 3 * dropped c0 c1 c2 c3 ≤ 9 ^ 3 * (2 / 10 ^ 7) := mul_le_mul hp hd dropped_nonneg (by norm_num)
      _ ≤ (1 / 80) ^ 2 := by norm_num
  have hV0 : 0 ≤ V := by rw [hV]; exact mul_nonneg (by positivity) dropped_nonneg
  have hs : √V ≤ 1 / 80 := by
    calc √V ≤ √((1 / 80) ^ 2) := Real.sqrt_le_sqrt hV1
      _ = 1 / 80 := Real.sqrt_sq (by norm_num)
  have hm : V * √V ≤ (1 / 80) ^ 2 * (1 / 80) := mul_le_mul hV1 hs (Real.sqrt_nonneg _) (by norm_num)
  refine ⟨by rw [← hV]; exact hV1.trans (by norm_num), ?_⟩
  unfold shortfall
  simp only
  rw [← hV]
  have : (2 : ℝ) * (2 / 10 ^ 7) + 3 * ((1 / 80) ^ 2 * (1 / 80)) ≤ 1 / 10 ^ 5 := by norm_num
  linarith

/-! ## Theorems -/

/-- **C92.** The bounds of the estimate of a descending curve, with the root finder of the code: the horizontal position of each point of the curve is between
the estimate plus `dmin` and the estimate plus `dmax`, up to what the root finder loses for the two equations that it solves (whose steps must be bounded). -/
theorem C92_bounds {sol : ℝ → ℝ → ℝ → ℝ → List ℝ} (hs : SolvesCubics sol) (c : Cubic) (h : c.Mono) {E : ℝ}
    (hE : ∀ q, q = hybrid0 c ∨ q = hybrid1 c → ∀ a0 a1 a2 a3, (a0, a1, a2, a3) = tangency (fromCubic (solveUnit sol) c).c1 (fromCubic (solveUnit sol) c).c2 q →
      (1 + (7 * |a3| + |a2|)) ^ 3 * dropped a0 a1 a2 a3 ≤ 1 / 9 ∧ shortfall a0 a1 a2 a3 ≤ E) (t : ℝ) (t0 : 0 ≤ t) (t1 : t ≤ 1) :
    (fromCubic (solveUnit sol) c).eval (c.eval t).y + (fromCubic (solveUnit sol) c).dmin - E ≤ (c.eval t).x ∧
    (c.eval t).x ≤ (fromCubic (solveUnit sol) c).eval (c.eval t).y + (fromCubic (solveUnit sol) c).dmax + E := by
  have hne := h.1.ne
  obtain ⟨ideal, hid⟩ := findsRoots_exists
  obtain ⟨i1, i2, i3, ⟨qm, um, hqm, um0, um1, em⟩, ⟨qM, uM, hqM, uM0, uM1, eM⟩⟩ := fromCubic_bounds ideal hid c hne
  have key := C66_bounds ideal hid c h t t0 t1
  have same : ∀ y, (fromCubic ideal c).eval y = (fromCubic (solveUnit sol) c).eval y := fun y => rfl
  -- the bounds found hold on the hybrids, up to the slack
  have hyb : ∀ q, q = hybrid0 c ∨ q = hybrid1 c → ∀ u, 0 ≤ u → u ≤ 1 →
      (fromCubic (solveUnit sol) c).dmin - E ≤ (q.eval u).x - (fromCubic (solveUnit sol) c).eval (q.eval u).y ∧
      (q.eval u).x - (fromCubic (solveUnit sol) c).eval (q.eval u).y ≤ (fromCubic (solveUnit sol) c).dmax + E := by
    obtain ⟨g0, g1⟩ := fromCubic_ends (solveUnit sol) c hne
    obtain ⟨k0, k1, k2, k3⟩ := hybrid_ends c
    obtain ⟨b0, hb0⟩ : ∃ x, x = (fromCubic (solveUnit sol) c).c0 := ⟨_, rfl⟩
    obtain ⟨b1, hb1⟩ : ∃ x, x = (fromCubic (solveUnit sol) c).c1 := ⟨_, rfl⟩
    obtain ⟨b2, hb2⟩ : ∃ x, x = (fromCubic (solveUnit sol) c).c2 := ⟨_, rfl⟩
    have hev : ∀ y, (fromCubic (solveUnit sol) c).eval y = b0 + b1 * y + b2 * y ^ 2 := fun y => by
      simp only [EstParab.eval]; rw [← hb0, ← hb1, ← hb2]; ring
    have herr : ∀ q t, (q.eval t).x - (fromCubic (solveUnit sol) c).eval (q.eval t).y = qerr b0 b1 b2 q t := fun q t => by rw [hev]; rfl
    have z0 : ∀ q, q = hybrid0 c ∨ q = hybrid1 c → qerr b0 b1 b2 q 0 = 0 ∧ qerr b0 b1 b2 q 1 = 0 := by
      rintro q (rfl | rfl)
      · rw [← herr, ← herr, k0, k1, g0, g1]; simp
      · rw [← herr, ← herr, k2, k3, g0, g1]; simp
    obtain ⟨f, hf⟩ : ∃ f : Quad → List ℝ, f = fun q => solveUnit sol (tangency b1 b2 q).1 (tangency b1 b2 q).2.1 (tangency b1 b2 q).2.2.1 (tangency b1 b2 q).2.2.2 := ⟨_, rfl⟩
    obtain ⟨d0, hd0⟩ : ∃ d, d = (f (hybrid0 c)).foldl (widen b0 b1 b2 (hybrid0 c)) (0, 0) := ⟨_, rfl⟩
    obtain ⟨d1, hd1⟩ : ∃ d, d = (f (hybrid1 c)).foldl (widen b0 b1 b2 (hybrid1 c)) d0 := ⟨_, rfl⟩
    have hmin : (fromCubic (solveUnit sol) c).dmin = d1.1 := by rw [hd1, hd0, hf, hb0, hb1, hb2]; rfl
    have hmax : (fromCubic (solveUnit sol) c).dmax = d1.2 := by rw [hd1, hd0, hf, hb0, hb1, hb2]; rfl
    obtain ⟨m1, m2, m3, -, -⟩ := foldl_widen b0 b1 b2 (hybrid0 c) (f (hybrid0 c)) (0, 0)
    rw [← hd0] at m1 m2 m3
    obtain ⟨n1, n2, n3, -, -⟩ := foldl_widen b0 b1 b2 (hybrid1 c) (f (hybrid1 c)) d0
    rw [← hd1] at n1 n2 n3
    have l0 : d1.1 ≤ 0 := n1.trans m1
    have r0 : 0 ≤ d1.2 := m2.trans n2
    intro q hq u u0 u1
    have hfound : ∀ r, (r = 0 ∨ r = 1 ∨ (r ∈ f q ∧ 0 ≤ r ∧ r ≤ 1)) → d1.1 ≤ qerr b0 b1 b2 q r ∧ qerr b0 b1 b2 q r ≤ d1.2 := by
      rintro r (rfl | rfl | ⟨hr, p0, p1⟩)
      · rw [(z0 q hq).1]; exact ⟨l0, r0⟩
      · rw [(z0 q hq).2]; exact ⟨l0, r0⟩
      · rcases hq with rfl | rfl
        · have := m3 r hr p0 p1
          exact ⟨n1.trans this.1, this.2.trans n2⟩
        · exact n3 r hr p0 p1
    have hslack := hE q hq (tangency b1 b2 q).1 (tangency b1 b2 q).2.1 (tangency b1 b2 q).2.2.1 (tangency b1 b2 q).2.2.2 (by rw [← hb1, ← hb2])
    have hE0 : 0 ≤ E := by
      refine le_trans ?_ hslack.2
      unfold shortfall
      have := dropped_nonneg (c0 := (tangency b1 b2 q).1) (c1 := (tangency b1 b2 q).2.1) (c2 := (tangency b1 b2 q).2.2.1) (c3 := (tangency b1 b2 q).2.2.2)
      positivity
    rw [herr, hmin, hmax]
    by_cases hz : (tangency b1 b2 q).1 = 0 ∧ (tangency b1 b2 q).2.1 = 0 ∧ (tangency b1 b2 q).2.2.1 = 0 ∧ (tangency b1 b2 q).2.2.2 = 0
    · have hb := bounds_hold hid (z0 q hq).1 (z0 q hq).2 (dmin := 0) (dmax := 0) le_rfl le_rfl (fun v _ v0 v1 => by
        have h1 := mono_of_deriv (f := qerr b0 b1 b2 q) (qerr_hasDeriv b0 b1 b2 q) (a := 0) (b := 1) (fun u _ _ => by
          rw [hz.1, hz.2.1, hz.2.2.1, hz.2.2.2]; norm_num) le_rfl v0 v1
        have h2 := mono_of_deriv (f := qerr b0 b1 b2 q) (qerr_hasDeriv b0 b1 b2 q) (a := 0) (b := 1) (fun u _ _ => by
          rw [hz.1, hz.2.1, hz.2.2.1, hz.2.2.2]; norm_num) v0 v1 le_rfl
        rw [(z0 q hq).1] at h1
        rw [(z0 q hq).2] at h2
        exact ⟨h1, h2⟩) u u0 u1
      constructor <;> linarith [hb.1, hb.2]
    · obtain ⟨⟨r, hr, e⟩, ⟨s, hs', e'⟩⟩ := C92_extrema hs hz hslack.1 (F := fun t => -qerr b0 b1 b2 q t) (fun t => by
        have := (qerr_hasDeriv b0 b1 b2 q t).neg
        rw [neg_neg] at this
        exact this) u0 u1
      have k1 := hfound r (by rw [hf]; exact hr)
      have k2 := hfound s (by rw [hf]; exact hs')
      constructor <;> linarith [k1.1, k2.2, hslack.2]
  rw [same] at key
  have h1 := hyb qm hqm um um0 um1
  have h2 := hyb qM hqM uM uM0 uM1
  rw [← same, ← em] at h1
  rw [← same, ← eM] at h2
  constructor <;> linarith [key.1, key.2, h1.1, h2.2]

/-! ## Non-vacuity -/

/-- An equation that loses a root, with what that costs. -/
example : ∃ sol, SolvesCubics sol ∧ 0 < dropped (1 / 4 + 1 / 10 ^ 9) (-1) 1 (-8 / 10 ^ 9) ∧
    (1 + (7 * |(-8 / 10 ^ 9 : ℝ)| + |(1 : ℝ)|)) ^ 3 * dropped (1 / 4 + 1 / 10 ^ 9) (-1) 1 (-8 / 10 ^ 9) ≤ 1 / 9 ∧
    shortfall (1 / 4 + 1 / 10 ^ 9) (-1) 1 (-8 / 10 ^ 9) ≤ 1 / 10 ^ 5 := by
  obtain ⟨s, h⟩ := solvesCubics_exists
  have := shortfall_le (c0 := 1 / 4 + 1 / 10 ^ 9) (c1 := -1) (c2 := 1) (c3 := -8 / 10 ^ 9) (by norm_num [abs_of_pos]) (by norm_num) (by norm_num) (by norm_num [abs_div])
  refine ⟨s, h, ?_, this⟩
  have e : reduced (1 / 4 + 1 / 10 ^ 9) (-1) 1 (-8 / 10 ^ 9) = (1, 0) := by
    unfold reduced
    rw [if_pos (by norm_num [abs_div]), if_neg (by norm_num [abs_of_pos])]
  unfold dropped
  rw [e]
  norm_num

/-- A descending curve for the bounds. -/
noncomputable def bent : Cubic := ⟨⟨0, 0⟩, ⟨1 / 10, 1 / 4⟩, ⟨1 / 20, 2 / 3⟩, ⟨0, 1⟩⟩

theorem bent_mono : bent.Mono := by
  refine ⟨by norm_num [bent], fun t h0 h1 => ?_⟩
  simp only [bent, Cubic.derivAt, Cubic.deriv, bez2]
  nlinarith [sq_nonneg (1 - t), sq_nonneg t, mul_nonneg h0 (by linarith : (0 : ℝ) ≤ 1 - t)]

/-- The hypotheses of `C92_bounds` hold for a curve, with `E = 10⁻⁵`. -/
example : ∃ sol, SolvesCubics sol ∧ bent.Mono ∧
    ∀ q, q = hybrid0 bent ∨ q = hybrid1 bent → ∀ a0 a1 a2 a3, (a0, a1, a2, a3) = tangency (fromCubic (solveUnit sol) bent).c1 (fromCubic (solveUnit sol) bent).c2 q →
      (1 + (7 * |a3| + |a2|)) ^ 3 * dropped a0 a1 a2 a3 ≤ 1 / 9 ∧ shortfall a0 a1 a2 a3 ≤ 1 / 10 ^ 5 := by
  obtain ⟨s, h⟩ := solvesCubics_exists
  refine ⟨s, h, bent_mono, ?_⟩
  rintro q (rfl | rfl) a0 a1 a2 a3 he
  all_goals
    simp only [tangency, quadParameters, hybrid0, hybrid1, fromCubic, bent, Pt.lerp, Cubic.signedArea, lineArea, Prod.mk.injEq] at he
    obtain ⟨rfl, rfl, rfl, rfl⟩ := he
    apply shortfall_le <;> (rw [abs_le]; norm_num)

/-- An equation that loses nothing: `t³ + t - 1`. -/
example : max |(1 : ℝ)| |(0 : ℝ)| / 10 ^ 7 ≤ |(1 : ℝ)| := by norm_num

end Verif.Geom
