import Verif.Geom.Estimate
import Mathlib.Analysis.Calculus.LocalExtr.Basic
import Mathlib.Topology.Order.Compact

/-! # The bounds of `EstParab::from_cubic` hold for descending curves: claim C66, completed

The curve is `c t = h (t, t)` where `h (l, ·)` is the quadratic Bézier whose middle control point is at `l` on the way from that of the first
hybrid to that of the second. If the error were larger on the curve than on both hybrids, it would have an inner maximum on the square of
all `(l, t)`. There the curves `h (l, ·)` have a common tangent with both ends on its left, and the signed area contradicts the sign of the
coefficient. Everything is done in coordinates in which the curve goes from `(0, 0)` to `(0, 1)`. -/

namespace Verif.Geom

section
variable (a b al be k : ℝ)

/-- Height on the square. -/
def sqY (l t : ℝ) : ℝ := 2 * t * (1 - t) * ((1 - l) * al + l * be) + t ^ 2

/-- Error on the square. -/
def sqE (l t : ℝ) : ℝ := 2 * t * (1 - t) * ((1 - l) * a + l * b) + k * sqY al be l t * (1 - sqY al be l t)

theorem sq_inner {l t : ℝ} (l0 : 0 < l) (l1 : l < 1) (t0 : 0 < t) (t1 : t < 1) (hab : al ≠ be)
    (hm : ∀ l' t', 0 ≤ l' → l' ≤ 1 → 0 ≤ t' → t' ≤ 1 → sqE a b al be k l' t' ≤ sqE a b al be k l t) :
    ∃ rho nu, rho = k * (1 - 2 * sqY al be l t) ∧ a + rho * al = nu ∧ b + rho * be = nu ∧ 0 ≤ nu ∧ rho ≤ nu := by
  obtain ⟨y, hy⟩ : ∃ y, y = sqY al be l t := ⟨_, rfl⟩
  obtain ⟨rho, hr⟩ : ∃ r, r = k * (1 - 2 * y) := ⟨_, rfl⟩
  have s0 : 0 < t * (1 - t) := mul_pos t0 (by linarith)
  -- along `l`
  have h1 : (b - a) + rho * (be - al) = 0 := by
    have hd : HasDerivAt (fun e : ℝ => 2 * t * (1 - t) * ((b - a) + rho * (be - al)) * e - k * (2 * t * (1 - t) * (be - al)) ^ 2 * e ^ 2)
        (2 * t * (1 - t) * ((b - a) + rho * (be - al))) 0 := by
      have := ((hasDerivAt_id (0 : ℝ)).const_mul (2 * t * (1 - t) * ((b - a) + rho * (be - al)))).sub
        (((hasDerivAt_id (0 : ℝ)).pow 2).const_mul (k * (2 * t * (1 - t) * (be - al)) ^ 2))
      exact HasDerivAt.congr_deriv this (by simp)
    have hl : IsLocalMax (fun e : ℝ => 2 * t * (1 - t) * ((b - a) + rho * (be - al)) * e - k * (2 * t * (1 - t) * (be - al)) ^ 2 * e ^ 2) 0 := by
      have hn : Set.Ioo (-l) (1 - l) ∈ nhds (0 : ℝ) := Ioo_mem_nhds (by linarith) (by linarith)
      filter_upwards [hn] with e he
      have := hm (l + e) t (by linarith [he.1]) (by linarith [he.2]) t0.le t1.le
      have h2 : sqE a b al be k (l + e) t - sqE a b al be k l t =
          2 * t * (1 - t) * ((b - a) + rho * (be - al)) * e - k * (2 * t * (1 - t) * (be - al)) ^ 2 * e ^ 2 := by
        rw [hr, hy]; simp only [sqE, sqY]; ring
      have h3 : 2 * t * (1 - t) * ((b - a) + rho * (be - al)) * e - k * (2 * t * (1 - t) * (be - al)) ^ 2 * e ^ 2 ≤ 0 := by
        rw [← h2]; linarith
      simpa using h3
    have := hl.hasDerivAt_eq_zero hd
    rcases mul_eq_zero.1 this with h | h
    · nlinarith
    · exact h
  obtain ⟨nu, hnu⟩ : ∃ n, n = a + rho * al := ⟨_, rfl⟩
  have hnu' : b + rho * be = nu := by rw [hnu]; linarith
  -- along `t` at constant height
  have hphi : ∀ l' t', sqY al be l' t' = y → sqE a b al be k l' t' = 2 * t' * (1 - t') * nu + t' ^ 2 * rho - rho * y + k * y * (1 - y) := by
    intro l' t' h
    simp only [sqE]
    rw [h, show (1 - l') * a + l' * b = nu - rho * ((1 - l') * al + l' * be) by linear_combination (l' - 1) * hnu + l' * hnu']
    simp only [sqY] at h
    linear_combination (-rho) * h
  have hmax : IsLocalMax (fun t' : ℝ => 2 * t' * (1 - t') * nu + t' ^ 2 * rho) t := by
    obtain ⟨L, hL⟩ : ∃ L : ℝ → ℝ, L = fun t' => l + (y - sqY al be l t') / (2 * t' * (1 - t') * (be - al)) := ⟨_, rfl⟩
    have hne : 2 * t * (1 - t) * (be - al) ≠ 0 := mul_ne_zero (by nlinarith) (sub_ne_zero.2 hab.symm)
    have hLt : L t = l := by rw [hL]; simp [hy]
    have hLc : ContinuousAt L t := by
      rw [hL]
      refine continuousAt_const.add (ContinuousAt.div ?_ ?_ hne)
      · simp only [sqY]; fun_prop
      · fun_prop
    have hLn : ∀ᶠ t' in nhds t, L t' ∈ Set.Ioo (0 : ℝ) 1 := hLc.eventually_mem (hLt.symm ▸ Ioo_mem_nhds l0 l1)
    filter_upwards [hLn, Ioo_mem_nhds t0 t1] with t' hL1 ht'
    have hYt : sqY al be (L t') t' = y := by
      have hne' : be - al ≠ 0 := sub_ne_zero.2 hab.symm
      have e1 : t' ≠ 0 := ht'.1.ne'
      have e2 : 1 - t' ≠ 0 := by linarith [ht'.2]
      have : sqY al be (L t') t' = sqY al be l t' + 2 * t' * (1 - t') * (be - al) * (L t' - l) := by
        simp only [sqY]; ring
      rw [this, hL]
      field_simp
      ring
    have h1 := hm (L t') t' hL1.1.le hL1.2.le ht'.1.le ht'.2.le
    rw [hphi _ _ hYt, hphi _ _ hy.symm] at h1
    linarith
  have hder : 2 * (1 - 2 * t) * nu + 2 * t * rho = 0 := by
    have i := hasDerivAt_id t
    have hd := (((i.const_mul 2).mul (i.const_sub 1)).mul_const nu).add ((i.pow 2).mul_const rho)
    have hd' : HasDerivAt (fun t' : ℝ => 2 * t' * (1 - t') * nu + t' ^ 2 * rho) (2 * (1 - 2 * t) * nu + 2 * t * rho) t :=
      HasDerivAt.congr_deriv (hd.congr_of_eventuallyEq (Filter.Eventually.of_forall fun t => by simp)) (by simp only [id_eq, Nat.cast_ofNat, Nat.add_one_sub_one, pow_one]; ring)
    have := hmax.hasDerivAt_eq_zero hd'
    exact this
  have hconc : rho ≤ 2 * nu := by
    have hn : ∀ᶠ e in nhdsWithin t (Set.Ioi t), 2 * e * (1 - e) * nu + e ^ 2 * rho ≤ 2 * t * (1 - t) * nu + t ^ 2 * rho :=
      hmax.filter_mono nhdsWithin_le_nhds
    obtain ⟨e, he, hlt⟩ := (hn.and self_mem_nhdsWithin).exists
    have hpos : 0 < (e - t) ^ 2 := by
      have : t < e := hlt
      exact pow_pos (by linarith) 2
    have : (rho - 2 * nu) * (e - t) ^ 2 ≤ 0 := by
      have e1 : (2 * e * (1 - e) * nu + e ^ 2 * rho) - (2 * t * (1 - t) * nu + t ^ 2 * rho) = (rho - 2 * nu) * (e - t) ^ 2 := by
        linear_combination (e - t) * hder
      linarith
    by_contra hc
    nlinarith
  refine ⟨rho, nu, by rw [hr, hy], hnu.symm, hnu', ?_, ?_⟩
  · nlinarith
  · nlinarith

/-- The height never exceeds `5/4` if the second control point is high enough; the needed bounds. -/
theorem sq_area {y1 y2 l t rho nu : ℝ} (l0 : 0 < l) (l1 : l < 1) (t0 : 0 < t) (t1 : t < 1) (hk : 0 < k)
    (hmono : ∀ u : ℝ, 0 ≤ u → u ≤ 1 → 0 ≤ y1 * (1 - u) * (1 - 3 * u) + y2 * u * (2 - 3 * u) + u ^ 2)
    (hrho : rho = k * (1 - 2 * sqY (3 / 2 * y1) ((3 * y2 - 1) / 2) l t)) (h0 : 0 ≤ nu) (h1 : rho ≤ nu)
    (hka : k = -(3 / 5) * (nu * (3 + y2 - y1) - rho * (2 * y1 + 3 * y2 - 1))) : False := by
  have m0 := hmono 0 le_rfl zero_le_one
  have m1 := hmono 1 zero_le_one le_rfl
  have m2 := hmono (1 / 4) (by norm_num) (by norm_num)
  have m3 := hmono (1 / 3) (by norm_num) (by norm_num)
  have m4 := hmono (1 / 2) (by norm_num) (by norm_num)
  have m5 := hmono (2 / 3) (by norm_num) (by norm_num)
  have m6 := hmono (3 / 4) (by norm_num) (by norm_num)
  ring_nf at m0 m1 m2 m3 m4 m5 m6
  obtain ⟨y, hy⟩ : ∃ y, y = sqY (3 / 2 * y1) ((3 * y2 - 1) / 2) l t := ⟨_, rfl⟩
  rw [← hy] at hrho
  have s0 : 0 < t * (1 - t) := mul_pos t0 (by linarith)
  have s1 : t * (1 - t) ≤ 1 / 4 := by nlinarith [sq_nonneg (t - 1 / 2)]
  obtain ⟨g, hg⟩ : ∃ g, g = (1 - l) * (3 / 2 * y1) + l * ((3 * y2 - 1) / 2) := ⟨_, rfl⟩
  have hyg : y = 2 * (t * (1 - t)) * g + t ^ 2 := by rw [hy, hg]; simp only [sqY]; ring
  have hS : 0 ≤ 3 + y2 - y1 := by linarith
  rcases le_total rho 0 with hneg | hpos
  · -- the bound for `2 y - 1`
    have hH : -(8 / 5) ≤ 2 * y1 + 3 * y2 - 1 := by linarith
    have hr0 : 0 ≤ 2 * y - 1 := by
      by_contra hc
      have : 0 < k * (1 - 2 * y) := mul_pos hk (by linarith)
      linarith
    have key : 0 < 1 + 3 / 5 * ((2 * y - 1) * (2 * y1 + 3 * y2 - 1)) := by
      rcases le_total 0 (2 * y1 + 3 * y2 - 1) with hp | hn
      · have := mul_nonneg hr0 hp; linarith
      · by_cases hy1 : y1 ≤ 2 / 3
        · have hg1 : g ≤ 1 := by
            have e1 : (1 - l) * (3 / 2 * y1) ≤ (1 - l) * 1 := mul_le_mul_of_nonneg_left (by linarith) (by linarith)
            have e2 : l * ((3 * y2 - 1) / 2) ≤ l * 1 := mul_le_mul_of_nonneg_left (by linarith) l0.le
            rw [hg]; linarith
          have hy' : y ≤ 1 := by
            have : t * (1 - t) * g ≤ t * (1 - t) * 1 := mul_le_mul_of_nonneg_left hg1 s0.le
            linarith [sq_nonneg (1 - t)]
          have : (2 * y - 1) * (8 / 5 + (2 * y1 + 3 * y2 - 1)) ≥ 0 := mul_nonneg hr0 (by linarith)
          linarith
        · have hH' : -(2 / 3) ≤ 2 * y1 + 3 * y2 - 1 := by linarith
          have hg1 : g ≤ 2 := by
            have e1 : (1 - l) * (3 / 2 * y1) ≤ (1 - l) * 2 := mul_le_mul_of_nonneg_left (by linarith) (by linarith)
            have e2 : l * ((3 * y2 - 1) / 2) ≤ l * 2 := mul_le_mul_of_nonneg_left (by linarith) l0.le
            rw [hg]; linarith
          have hy' : y ≤ 4 / 3 := by
            have : t * (1 - t) * g ≤ t * (1 - t) * 2 := mul_le_mul_of_nonneg_left hg1 s0.le
            linarith [sq_nonneg (t - 2 / 3)]
          have : (2 * y - 1) * (2 / 3 + (2 * y1 + 3 * y2 - 1)) ≥ 0 := mul_nonneg hr0 (by linarith)
          linarith
    have hm := mul_pos hk key
    have hn := mul_nonneg h0 hS
    rw [hrho] at hka
    linarith
  · have hH : -(8 / 5) ≤ 4 - 3 * y1 - 2 * y2 := by linarith
    have hr0 : 0 ≤ 1 - 2 * y := by
      by_contra hc
      have : k * (1 - 2 * y) < 0 := mul_neg_of_pos_of_neg hk (by linarith)
      linarith
    have key : 0 < 1 + 3 / 5 * ((1 - 2 * y) * (4 - 3 * y1 - 2 * y2)) := by
      rcases le_total 0 (4 - 3 * y1 - 2 * y2) with hp | hn
      · have := mul_nonneg hr0 hp; linarith
      · by_cases hy2 : 1 / 3 ≤ y2
        · have hg1 : 0 ≤ g := by
            have e1 : 0 ≤ (1 - l) * (3 / 2 * y1) := mul_nonneg (by linarith) (by linarith)
            have e2 : 0 ≤ l * ((3 * y2 - 1) / 2) := mul_nonneg l0.le (by linarith)
            rw [hg]; linarith
          have hy' : 0 ≤ y := by
            have := mul_nonneg s0.le hg1
            linarith [sq_nonneg t]
          have : (1 - 2 * y) * (8 / 5 + (4 - 3 * y1 - 2 * y2)) ≥ 0 := mul_nonneg hr0 (by linarith)
          linarith
        · have hH' : -(2 / 3) ≤ 4 - 3 * y1 - 2 * y2 := by linarith
          have hg1 : -1 ≤ g := by
            have e1 : (1 - l) * (-1) ≤ (1 - l) * (3 / 2 * y1) := mul_le_mul_of_nonneg_left (by linarith) (by linarith)
            have e2 : l * (-1) ≤ l * ((3 * y2 - 1) / 2) := mul_le_mul_of_nonneg_left (by linarith) l0.le
            rw [hg]; linarith
          have hy' : -(1 / 3) ≤ y := by
            have : t * (1 - t) * (-1) ≤ t * (1 - t) * g := mul_le_mul_of_nonneg_left hg1 s0.le
            linarith [sq_nonneg (t - 1 / 3)]
          have : (1 - 2 * y) * (2 / 3 + (4 - 3 * y1 - 2 * y2)) ≥ 0 := mul_nonneg hr0 (by linarith)
          linarith
    have hm := mul_pos hk key
    have hn := mul_nonneg (sub_nonneg.2 h1) hS
    rw [hrho] at hka hn
    linarith

/-- The core: in normal coordinates, for a descending curve and a positive coefficient, the error on the curve is at most the larger of
those on the hybrids. -/
theorem sq_core {x1 x2 y1 y2 M : ℝ} (hk : 0 < k) (hM : 0 ≤ M)
    (hmono : ∀ u : ℝ, 0 ≤ u → u ≤ 1 → 0 ≤ y1 * (1 - u) * (1 - 3 * u) + y2 * u * (2 - 3 * u) + u ^ 2)
    (hka : k = -(9 / 10) * (x1 * (y2 + 1) + x2 * (2 - y1)))
    (h0 : ∀ t, 0 ≤ t → t ≤ 1 → sqE (3 / 2 * x1) (3 / 2 * x2) (3 / 2 * y1) ((3 * y2 - 1) / 2) k 0 t ≤ M)
    (h1 : ∀ t, 0 ≤ t → t ≤ 1 → sqE (3 / 2 * x1) (3 / 2 * x2) (3 / 2 * y1) ((3 * y2 - 1) / 2) k 1 t ≤ M)
    {l t : ℝ} (l0 : 0 ≤ l) (l1 : l ≤ 1) (t0 : 0 ≤ t) (t1 : t ≤ 1) :
    sqE (3 / 2 * x1) (3 / 2 * x2) (3 / 2 * y1) ((3 * y2 - 1) / 2) k l t ≤ M := by
  obtain ⟨E, hE⟩ : ∃ E, E = sqE (3 / 2 * x1) (3 / 2 * x2) (3 / 2 * y1) ((3 * y2 - 1) / 2) k := ⟨_, rfl⟩
  have hc : Continuous fun p : ℝ × ℝ => E p.1 p.2 := by
    rw [hE]; simp only [sqE, sqY]; fun_prop
  obtain ⟨⟨l', t'⟩, hmem, hmax⟩ := (isCompact_Icc.prod (isCompact_Icc (a := (0 : ℝ)) (b := 1)) : IsCompact ((Set.Icc (0 : ℝ) 1) ×ˢ (Set.Icc (0 : ℝ) 1))).exists_isMaxOn
    ⟨(0, 0), by constructor <;> constructor <;> norm_num⟩ hc.continuousOn
  have hm : ∀ l t, 0 ≤ l → l ≤ 1 → 0 ≤ t → t ≤ 1 → E l t ≤ E l' t' := fun l t a b c d => hmax (a := (l, t)) ⟨⟨a, b⟩, ⟨c, d⟩⟩
  obtain ⟨⟨hl0, hl1⟩, ⟨ht0, ht1⟩⟩ := hmem
  dsimp only at hl0 hl1 ht0 ht1
  rw [← hE] at h0 h1 ⊢
  refine (hm l t l0 l1 t0 t1).trans ?_
  by_contra hgt
  rw [not_le] at hgt
  have e1 : l' ≠ 0 := fun e => by have := h0 t' ht0 ht1; rw [e] at hgt; linarith
  have e2 : l' ≠ 1 := fun e => by have := h1 t' ht0 ht1; rw [e] at hgt; linarith
  have e3 : t' ≠ 0 := fun e => by rw [hE, e] at hgt; simp [sqE, sqY] at hgt; linarith
  have e4 : t' ≠ 1 := fun e => by rw [hE, e] at hgt; simp [sqE, sqY] at hgt; linarith
  have L0 : 0 < l' := lt_of_le_of_ne hl0 e1.symm
  have L1 : l' < 1 := lt_of_le_of_ne hl1 e2
  have T0 : 0 < t' := lt_of_le_of_ne ht0 e3.symm
  have T1 : t' < 1 := lt_of_le_of_ne ht1 e4
  by_cases hab : 3 / 2 * y1 = (3 * y2 - 1) / 2
  · -- the error is linear in `l`
    have hlin : E l' t' = (1 - l') * E 0 t' + l' * E 1 t' := by
      rw [hE]; simp only [sqE, sqY, hab]; ring
    have a := mul_le_mul_of_nonneg_left (h0 t' ht0 ht1) (by linarith : 0 ≤ 1 - l')
    have b := mul_le_mul_of_nonneg_left (h1 t' ht0 ht1) hl0
    linarith
  · rw [hE] at hm
    obtain ⟨rho, nu, g1, g2, g3, g4, g5⟩ := sq_inner _ _ _ _ k L0 L1 T0 T1 hab hm
    refine sq_area k L0 L1 T0 T1 hk hmono g1 g4 g5 ?_
    rw [hka]
    have f1 : x1 = 2 / 3 * (nu - rho * (3 / 2 * y1)) := by linarith
    have f2 : x2 = 2 / 3 * (nu - rho * ((3 * y2 - 1) / 2)) := by linarith
    rw [f1, f2]; ring

end

/-! ## In general coordinates -/

/-- Upper bound for a parabola of positive coefficient that passes through the ends and encloses no area, given the bound on the hybrids. -/
theorem upper_pos (c : Cubic) (A B K M : ℝ) (h : c.Mono) (hk : 0 < K) (hM : 0 ≤ M) (g0 : A + B * c.p0.y + K * c.p0.y * c.p0.y = c.p0.x)
    (g1 : A + B * c.p3.y + K * c.p3.y * c.p3.y = c.p3.x) (hk' : K * (c.p3.y - c.p0.y) ^ 3 = -6 * (c.signedArea + lineArea c.p3 c.p0))
    (h3' : ∀ q, q = hybrid0 c ∨ q = hybrid1 c → ∀ t, 0 ≤ t → t ≤ 1 → (q.eval t).x ≤ A + B * (q.eval t).y + K * (q.eval t).y * (q.eval t).y + M)
    (t : ℝ) (t0 : 0 ≤ t) (t1 : t ≤ 1) : (c.eval t).x ≤ A + B * (c.eval t).y + K * (c.eval t).y * (c.eval t).y + M := by
  have hd0 : 0 < c.p3.y - c.p0.y := sub_pos.2 h.1
  have hmono := h.2
  simp only [Cubic.signedArea, lineArea] at hk'
  clear h
  simp only [Cubic.derivAt, Cubic.deriv, bez2] at hmono
  simp only [hybrid0, hybrid1, Pt.lerp, Quad.eval, bez2] at h3'
  have q0 := h3' _ (.inl rfl)
  have q1 := h3' _ (.inr rfl)
  clear h3'
  simp only [Cubic.eval, bez3]
  dsimp only at q0 q1
  generalize c.p0.x = X0 at *
  generalize c.p1.x = X1 at *
  generalize c.p2.x = X2 at *
  generalize c.p3.x = X3 at *
  generalize c.p0.y = Y0 at *
  generalize c.p1.y = Y1 at *
  generalize c.p2.y = Y2 at *
  generalize c.p3.y = Y3 at *
  obtain ⟨d, hd⟩ : ∃ d, d = Y3 - Y0 := ⟨_, rfl⟩
  rw [← hd] at hd0 hk'
  -- normal coordinates
  obtain ⟨y1, hy1⟩ : ∃ y, y = (Y1 - Y0) / d := ⟨_, rfl⟩
  obtain ⟨y2, hy2⟩ : ∃ y, y = (Y2 - Y0) / d := ⟨_, rfl⟩
  have eY1 : Y1 = Y0 + d * y1 := by rw [hy1]; field_simp; ring
  have eY2 : Y2 = Y0 + d * y2 := by rw [hy2]; field_simp; ring
  have eY3 : Y3 = Y0 + d := by rw [hd]; ring
  obtain ⟨m, hm⟩ : ∃ m, m = X3 - X0 := ⟨_, rfl⟩
  obtain ⟨x1, hx1⟩ : ∃ x, x = X1 - X0 - m * y1 := ⟨_, rfl⟩
  obtain ⟨x2, hx2⟩ : ∃ x, x = X2 - X0 - m * y2 := ⟨_, rfl⟩
  have eX1 : X1 = X0 + m * y1 + x1 := by rw [hx1]; ring
  have eX2 : X2 = X0 + m * y2 + x2 := by rw [hx2]; ring
  have eX3 : X3 = X0 + m := by rw [hm]; ring
  clear hy1 hy2 hx1 hx2 hm hd
  subst eY1 eY2 eY3 eX1 eX2 eX3
  -- the parabola is the chord plus `K (y - Y0) (y - Y3)`
  have hdne : d ≠ 0 := hd0.ne'
  have hBm : B * d = m - K * d * (2 * Y0 + d) := by linear_combination g1 - g0
  have hpar : ∀ x y : ℝ, A + B * (Y0 + d * y) + K * (Y0 + d * y) * (Y0 + d * y) = X0 + m * y - K * d ^ 2 * (y * (1 - y)) := by
    intro x y
    linear_combination g0 + y * hBm
  have hka : K * d ^ 2 = -(9 / 10) * (x1 * (y2 + 1) + x2 * (2 - y1)) := by
    have : (K * d ^ 2) * d = (-(9 / 10) * (x1 * (y2 + 1) + x2 * (2 - y1))) * d := by
      linear_combination hk'
    exact mul_right_cancel₀ hdne this
  have hkp : 0 < K * d ^ 2 := mul_pos hk (pow_pos hd0 2)
  have hmono' : ∀ u : ℝ, 0 ≤ u → u ≤ 1 → 0 ≤ y1 * (1 - u) * (1 - 3 * u) + y2 * u * (2 - 3 * u) + u ^ 2 := by
    intro u u0 u1
    have := hmono u u0 u1
    have e : (1 - u) ^ 2 * (3 * (Y0 + d * y1 - Y0)) + 2 * (1 - u) * u * (3 * (Y0 + d * y2 - (Y0 + d * y1))) + u ^ 2 * (3 * (Y0 + d - (Y0 + d * y2))) =
        (3 * d) * (y1 * (1 - u) * (1 - 3 * u) + y2 * u * (2 - 3 * u) + u ^ 2) := by ring
    rw [e] at this
    exact nonneg_of_mul_nonneg_right this (by linarith)
  have key := sq_core (K * d ^ 2) hkp hM hmono' hka ?_ ?_ t0 t1 t0 t1
  · have e := hpar 0 (sqY (3 / 2 * y1) ((3 * y2 - 1) / 2) t t)
    have ey : (1 - t) ^ 3 * Y0 + 3 * (1 - t) ^ 2 * t * (Y0 + d * y1) + 3 * (1 - t) * t ^ 2 * (Y0 + d * y2) + t ^ 3 * (Y0 + d) =
        Y0 + d * sqY (3 / 2 * y1) ((3 * y2 - 1) / 2) t t := by simp only [sqY]; ring
    rw [ey, e]
    simp only [sqE] at key
    have ex : (1 - t) ^ 3 * X0 + 3 * (1 - t) ^ 2 * t * (X0 + m * y1 + x1) + 3 * (1 - t) * t ^ 2 * (X0 + m * y2 + x2) + t ^ 3 * (X0 + m) =
        X0 + m * sqY (3 / 2 * y1) ((3 * y2 - 1) / 2) t t + 2 * t * (1 - t) * ((1 - t) * (3 / 2 * x1) + t * (3 / 2 * x2)) := by simp only [sqY]; ring
    rw [ex]
    linarith
  · intro u u0 u1
    have e := hpar 0 (sqY (3 / 2 * y1) ((3 * y2 - 1) / 2) 0 u)
    have ey : (1 - u) ^ 2 * Y0 + 2 * (1 - u) * u * (Y0 + 3 / 2 * (Y0 + d * y1 - Y0)) + u ^ 2 * (Y0 + d) =
        Y0 + d * sqY (3 / 2 * y1) ((3 * y2 - 1) / 2) 0 u := by simp only [sqY]; ring
    have ex : (1 - u) ^ 2 * X0 + 2 * (1 - u) * u * (X0 + 3 / 2 * (X0 + m * y1 + x1 - X0)) + u ^ 2 * (X0 + m) =
        X0 + m * sqY (3 / 2 * y1) ((3 * y2 - 1) / 2) 0 u + 2 * u * (1 - u) * ((1 - 0) * (3 / 2 * x1) + 0 * (3 / 2 * x2)) := by simp only [sqY]; ring
    have := q0 u u0 u1
    rw [ey, ex, e] at this
    simp only [sqE]
    linarith
  · intro u u0 u1
    have e := hpar 0 (sqY (3 / 2 * y1) ((3 * y2 - 1) / 2) 1 u)
    have ey : (1 - u) ^ 2 * Y0 + 2 * (1 - u) * u * (Y0 + d + 3 / 2 * (Y0 + d * y2 - (Y0 + d))) + u ^ 2 * (Y0 + d) =
        Y0 + d * sqY (3 / 2 * y1) ((3 * y2 - 1) / 2) 1 u := by simp only [sqY]; ring
    have ex : (1 - u) ^ 2 * X0 + 2 * (1 - u) * u * (X0 + m + 3 / 2 * (X0 + m * y2 + x2 - (X0 + m))) + u ^ 2 * (X0 + m) =
        X0 + m * sqY (3 / 2 * y1) ((3 * y2 - 1) / 2) 1 u + 2 * u * (1 - u) * ((1 - 1) * (3 / 2 * x1) + 1 * (3 / 2 * x2)) := by simp only [sqY]; ring
    have := q1 u u0 u1
    rw [ey, ex, e] at this
    simp only [sqE]
    linarith

/-- Reflection of the horizontal coordinate. -/
def Cubic.flip (c : Cubic) : Cubic := ⟨⟨-c.p0.x, c.p0.y⟩, ⟨-c.p1.x, c.p1.y⟩, ⟨-c.p2.x, c.p2.y⟩, ⟨-c.p3.x, c.p3.y⟩⟩

/-- **C66.** For a descending curve the documented bounds hold: the horizontal position of each of its points is between the estimate plus
`dmin` and the estimate plus `dmax`. -/
theorem C66_bounds (solve : ℝ → ℝ → ℝ → ℝ → List ℝ) (hs : FindsRoots solve) (c : Cubic) (h : c.Mono) (t : ℝ) (t0 : 0 ≤ t) (t1 : t ≤ 1) :
    (fromCubic solve c).eval (c.eval t).y + (fromCubic solve c).dmin ≤ (c.eval t).x ∧
    (c.eval t).x ≤ (fromCubic solve c).eval (c.eval t).y + (fromCubic solve c).dmax := by
  have hne := h.1.ne
  have hd : c.p3.y - c.p0.y ≠ 0 := sub_ne_zero.2 h.1.ne'
  obtain ⟨hm, hM, h3, _, _⟩ := fromCubic_bounds solve hs c hne
  obtain ⟨g0, g1⟩ := fromCubic_ends solve c hne
  have hk' : (fromCubic solve c).c2 * (c.p3.y - c.p0.y) ^ 3 = -6 * (c.signedArea + lineArea c.p3 c.p0) := by
    simp only [fromCubic]; field_simp
  have hp := fromCubic_slack solve hs c hne t t0 t1
  rcases lt_trichotomy (fromCubic solve c).c2 0 with hk | hk | hk
  · rw [max_eq_left hk.le] at hp
    refine ⟨?_, by linarith [hp.2]⟩
    have hf : c.flip.Mono := ⟨h.1, h.2⟩
    have fe : ∀ t, (c.flip.eval t).x = -(c.eval t).x ∧ (c.flip.eval t).y = (c.eval t).y := fun t => by
      simp only [Cubic.flip, Cubic.eval, bez3]; exact ⟨by ring, trivial⟩
    have := upper_pos c.flip (-(fromCubic solve c).c0) (-(fromCubic solve c).c1) (-(fromCubic solve c).c2) (-(fromCubic solve c).dmin) hf (by linarith) (by linarith)
      ?_ ?_ ?_ ?_ t t0 t1
    · rw [(fe t).1, (fe t).2] at this
      simp only [EstParab.eval]
      linarith
    · simp only [EstParab.eval] at g0
      simp only [Cubic.flip]; linarith
    · simp only [EstParab.eval] at g1
      simp only [Cubic.flip]; linarith
    · simp only [Cubic.flip, Cubic.signedArea, lineArea] at hk' ⊢
      linear_combination -hk'
    · rintro q (rfl | rfl) u u0 u1
      · have e := (h3 _ (.inl rfl) u u0 u1).1
        have e1 : ((hybrid0 c.flip).eval u).x = -((hybrid0 c).eval u).x := by simp only [hybrid0, Cubic.flip, Pt.lerp, Quad.eval, bez2]; ring
        have e2 : ((hybrid0 c.flip).eval u).y = ((hybrid0 c).eval u).y := rfl
        rw [e1, e2]
        simp only [EstParab.eval] at e
        linarith
      · have e := (h3 _ (.inr rfl) u u0 u1).1
        have e1 : ((hybrid1 c.flip).eval u).x = -((hybrid1 c).eval u).x := by simp only [hybrid1, Cubic.flip, Pt.lerp, Quad.eval, bez2]; ring
        have e2 : ((hybrid1 c.flip).eval u).y = ((hybrid1 c).eval u).y := rfl
        rw [e1, e2]
        simp only [EstParab.eval] at e
        linarith
  · rw [hk] at hp
    simp only [neg_zero, max_self, zero_mul, zero_div, sub_zero, add_zero] at hp
    exact hp
  · rw [max_eq_left (by linarith : -(fromCubic solve c).c2 ≤ 0)] at hp
    refine ⟨by linarith [hp.1], ?_⟩
    exact upper_pos c _ _ _ _ h hk hM g0 g1 hk' (fun q hq u u0 u1 => (h3 q hq u u0 u1).2) t t0 t1

/-- Non-vacuity of C66: an S-shaped descending curve and a root finder. -/
example : ∃ solve, FindsRoots solve ∧ sCurve.Mono := by
  obtain ⟨s, h⟩ := findsRoots_exists
  exact ⟨s, h, sCurve_mono⟩

end Verif.Geom
