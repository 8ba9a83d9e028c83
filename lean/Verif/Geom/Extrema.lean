import Verif.Geom.Bezier
import Mathlib.Tactic.Positivity

/-! Lemmas for the extremum of a quadratic and the transversality test (no claims). -/

namespace Verif.Geom

theorem bez2_expand (a b c t : ℝ) : a * t * t + 2 * b * t * (1 - t) + c * (1 - t) * (1 - t) = c + 2 * (b - c) * t + (a - b + (c - b)) * t ^ 2 := by
  ring

/-- A quadratic on an interval is below its value at an end or at the interior critical point. -/
theorem quad_le (p q r t0 t1 t : ℝ) (h0 : t0 ≤ t) (h1 : t ≤ t1) (g0 : p + q * t0 + r * t0 ^ 2 < p + q * t + r * t ^ 2)
    (g1 : p + q * t1 + r * t1 ^ 2 < p + q * t + r * t ^ 2) :
    r < 0 ∧ t0 < -q / (2 * r) ∧ -q / (2 * r) < t1 ∧ p + q * t + r * t ^ 2 ≤ p + q * (-q / (2 * r)) + r * (-q / (2 * r)) ^ 2 := by
  have k0 : 0 < q + r * (t + t0) := by
    by_contra hc
    have := mul_nonneg (sub_nonneg.2 h0) (neg_nonneg.2 (not_lt.1 hc))
    nlinarith
  have k1 : q + r * (t1 + t) < 0 := by
    by_contra hc
    have := mul_nonneg (sub_nonneg.2 h1) (not_lt.1 hc)
    nlinarith
  have hr : r < 0 := by
    by_contra hc
    have : 0 ≤ r * (t1 - t0) := mul_nonneg (not_lt.1 hc) (by linarith)
    nlinarith
  obtain ⟨m, hm⟩ : ∃ m, m = -q / (2 * r) := ⟨_, rfl⟩
  have hmq : q = -2 * r * m := by
    have := hr.ne
    rw [hm]; field_simp
  rw [← hm]
  subst hmq
  refine ⟨hr, ?_, ?_, ?_⟩
  · have : 0 < r * (t + t0 - 2 * m) := by linarith
    have : t + t0 - 2 * m < 0 := by
      by_contra hc
      have := mul_nonpos_of_nonpos_of_nonneg hr.le (not_lt.1 hc)
      linarith
    linarith
  · have : r * (t1 + t - 2 * m) < 0 := by linarith
    have : 0 < t1 + t - 2 * m := by
      by_contra hc
      have := mul_nonneg_of_nonpos_of_nonpos hr.le (not_lt.1 hc)
      linarith
    linarith
  · nlinarith [mul_nonneg_of_nonpos_of_nonpos hr.le (neg_nonpos.2 (sq_nonneg (t - m)))]

theorem crit_eq (a b c : ℝ) : -(2 * (b - c)) / (2 * (a - b + (c - b))) = (c - b) / (a - b + (c - b)) := by
  rw [show -(2 * (b - c)) = 2 * (c - b) by ring]
  rw [mul_div_mul_left _ _ two_ne_zero]

theorem quadMax_bound (a b c t0 t1 t : ℝ) (h0 : t0 ≤ t) (h1 : t ≤ t1) :
    a * t * t + 2 * b * t * (1 - t) + c * (1 - t) * (1 - t) ≤ quadMaxBetween a b c t0 t1 := by
  have hm : max (a * t0 * t0 + 2 * b * t0 * (1 - t0) + c * (1 - t0) * (1 - t0)) (a * t1 * t1 + 2 * b * t1 * (1 - t1) + c * (1 - t1) * (1 - t1)) ≤
      quadMaxBetween a b c t0 t1 := by
    unfold quadMaxBetween
    dsimp only
    split
    · exact le_max_left _ _
    · exact le_rfl
  by_cases g0 : a * t * t + 2 * b * t * (1 - t) + c * (1 - t) * (1 - t) ≤ a * t0 * t0 + 2 * b * t0 * (1 - t0) + c * (1 - t0) * (1 - t0)
  · exact g0.trans ((le_max_left _ _).trans hm)
  by_cases g1 : a * t * t + 2 * b * t * (1 - t) + c * (1 - t) * (1 - t) ≤ a * t1 * t1 + 2 * b * t1 * (1 - t1) + c * (1 - t1) * (1 - t1)
  · exact g1.trans ((le_max_right _ _).trans hm)
  rw [not_le, bez2_expand, bez2_expand] at g0 g1
  obtain ⟨k1, k2, k3, k4⟩ := quad_le _ _ _ t0 t1 t h0 h1 g0 g1
  rw [crit_eq] at k2 k3 k4
  rw [bez2_expand]
  refine k4.trans ?_
  unfold quadMaxBetween
  dsimp only
  rw [if_pos ⟨k1.ne, k2, k3⟩, ← bez2_expand]
  exact le_max_right _ _

theorem quadMax_attained (a b c t0 t1 : ℝ) (h : t0 ≤ t1) :
    ∃ t, t0 ≤ t ∧ t ≤ t1 ∧ quadMaxBetween a b c t0 t1 = a * t * t + 2 * b * t * (1 - t) + c * (1 - t) * (1 - t) := by
  have hm : ∃ t, t0 ≤ t ∧ t ≤ t1 ∧ max (a * t0 * t0 + 2 * b * t0 * (1 - t0) + c * (1 - t0) * (1 - t0))
      (a * t1 * t1 + 2 * b * t1 * (1 - t1) + c * (1 - t1) * (1 - t1)) = a * t * t + 2 * b * t * (1 - t) + c * (1 - t) * (1 - t) := by
    rcases max_choice (a * t0 * t0 + 2 * b * t0 * (1 - t0) + c * (1 - t0) * (1 - t0)) (a * t1 * t1 + 2 * b * t1 * (1 - t1) + c * (1 - t1) * (1 - t1)) with e | e
    · exact ⟨t0, le_rfl, h, e⟩
    · exact ⟨t1, h, le_rfl, e⟩
  unfold quadMaxBetween
  dsimp only
  split
  · rename_i hc
    rcases max_choice (max (a * t0 * t0 + 2 * b * t0 * (1 - t0) + c * (1 - t0) * (1 - t0)) (a * t1 * t1 + 2 * b * t1 * (1 - t1) + c * (1 - t1) * (1 - t1)))
      (a * ((c - b) / (a - b + (c - b))) * ((c - b) / (a - b + (c - b))) + 2 * b * ((c - b) / (a - b + (c - b))) * (1 - (c - b) / (a - b + (c - b))) +
        c * (1 - (c - b) / (a - b + (c - b))) * (1 - (c - b) / (a - b + (c - b)))) with e | e
    · rw [e]; exact hm
    · rw [e]; exact ⟨_, hc.2.1.le, hc.2.2.le, rfl⟩
  · exact hm

theorem quadMin_bound (a b c t0 t1 t : ℝ) (h0 : t0 ≤ t) (h1 : t ≤ t1) :
    quadMinBetween a b c t0 t1 ≤ a * t * t + 2 * b * t * (1 - t) + c * (1 - t) * (1 - t) := by
  have := quadMax_bound (-a) (-b) (-c) t0 t1 t h0 h1
  unfold quadMinBetween
  linarith

theorem quadMin_attained (a b c t0 t1 : ℝ) (h : t0 ≤ t1) :
    ∃ t, t0 ≤ t ∧ t ≤ t1 ∧ quadMinBetween a b c t0 t1 = a * t * t + 2 * b * t * (1 - t) + c * (1 - t) * (1 - t) := by
  obtain ⟨t, h0, h1, e⟩ := quadMax_attained (-a) (-b) (-c) t0 t1 h
  exact ⟨t, h0, h1, by unfold quadMinBetween; rw [e]; ring⟩

/-! ## Transversality -/

theorem derivX_eq (c : Cubic) (t : ℝ) : (c.derivAt t).x =
    c.deriv.2.2.x * t * t + 2 * c.deriv.2.1.x * t * (1 - t) + c.deriv.1.x * (1 - t) * (1 - t) := by
  simp only [Cubic.derivAt, bez2]; ring

theorem derivY_eq (c : Cubic) (t : ℝ) : (c.derivAt t).y =
    c.deriv.2.2.y * t * t + 2 * c.deriv.2.1.y * t * (1 - t) + c.deriv.1.y * (1 - t) * (1 - t) := by
  simp only [Cubic.derivAt, bez2]; ring

theorem hasDeriv_comb (c : Cubic) (u v t : ℝ) :
    HasDerivAt (fun t => u * (c.eval t).x + v * (c.eval t).y) (u * (c.derivAt t).x + v * (c.derivAt t).y) t :=
  ((c.hasDeriv_x t).const_mul u).add ((c.hasDeriv_y t).const_mul v)

/-- The inequality behind the test: slopes bounded by `m / d` on one side. -/
theorem slope_bound {c : Cubic} {T m d t : ℝ} (h : ∀ s, 0 ≤ s → s ≤ T → d * (c.derivAt s).x ≤ m * (c.derivAt s).y) (h0 : 0 ≤ t) (h1 : t ≤ T) :
    d * ((c.eval t).x - c.p0.x) ≤ m * ((c.eval t).y - c.p0.y) := by
  have := mono_of_deriv (f := fun t => -d * (c.eval t).x + m * (c.eval t).y) (hasDeriv_comb c (-d) m) (a := 0) (b := T)
    (fun s a b => by have := h s a b; linarith) le_rfl h0 h1
  rw [c.eval_zero] at this
  linarith

theorem transversal_sound {l r : Cubic} {y1 : ℝ} (hl : l.Mono) (hr : r.Mono) (hy : l.p0.y = r.p0.y) (hx : l.p0.x ≤ r.p0.x) (h01 : l.p0.y < y1)
    (hl1 : y1 ≤ l.p3.y) (hr1 : y1 ≤ r.p3.y) (ht : transversalAfter l r y1 = true) {s t : ℝ} (hs0 : 0 ≤ s) (hs1 : s ≤ 1) (ht0 : 0 ≤ t) (ht1 : t ≤ 1)
    (he : (l.eval s).y = (r.eval t).y) (hpos : l.p0.y < (l.eval s).y) (hle : (l.eval s).y ≤ y1) : (l.eval s).x < (r.eval t).x := by
  obtain ⟨a1, b1, e1⟩ := solveT_spec (c := l) h01.le hl1
  obtain ⟨a2, b2, e2⟩ := solveT_spec (c := r) (hy ▸ h01.le) hr1
  have hsT : s ≤ solveT l y1 := (hl.le_iff hs0 hs1 a1 b1).1 (by rw [e1]; exact hle)
  have htT : t ≤ solveT r y1 := (hr.le_iff ht0 ht1 a2 b2).1 (by rw [e2, ← he]; exact hle)
  have hs : 0 < s := by
    rcases lt_or_eq_of_le hs0 with h | h
    · exact h
    · rw [← h, l.eval_zero] at hpos; exact absurd hpos (lt_irrefl _)
  have htp : 0 < t := by
    rcases lt_or_eq_of_le ht0 with h | h
    · exact h
    · rw [he, ← h, r.eval_zero, hy] at hpos; exact absurd hpos (lt_irrefl _)
  set T := solveT l y1 with hT
  set U := solveT r y1 with hU
  obtain ⟨lm, hlm⟩ : ∃ m, m = quadMaxBetween l.deriv.2.2.x l.deriv.2.1.x l.deriv.1.x 0 T := ⟨_, rfl⟩
  obtain ⟨rm, hrm⟩ : ∃ m, m = quadMinBetween r.deriv.2.2.x r.deriv.2.1.x r.deriv.1.x 0 U := ⟨_, rfl⟩
  have bl : ∀ u, 0 ≤ u → u ≤ T → (l.derivAt u).x ≤ lm := fun u h0 h1 => by
    rw [derivX_eq, hlm]; exact quadMax_bound _ _ _ _ _ _ h0 h1
  have br : ∀ u, 0 ≤ u → u ≤ U → rm ≤ (r.derivAt u).x := fun u h0 h1 => by
    rw [derivX_eq, hrm]; exact quadMin_bound _ _ _ _ _ _ h0 h1
  have ml : ∀ u, 0 ≤ u → u ≤ T → 0 ≤ (l.derivAt u).y := fun u h0 h1 => hl.2 u h0 (h1.trans b1)
  have mr : ∀ u, 0 ≤ u → u ≤ U → 0 ≤ (r.derivAt u).y := fun u h0 h1 => hr.2 u h0 (h1.trans b2)
  simp only [transversalAfter] at ht
  split at ht
  · simp at ht
  split at ht
  · simp at ht
  rw [← hT, ← hU, ← hlm, ← hrm] at ht
  have hdy : 0 < (l.eval s).y - l.p0.y := by linarith
  split at ht
  · -- left goes left, right goes right
    rename_i hc
    have h1 := slope_bound (c := l) (T := T) (m := lm) (d := (1 : ℝ)) (t := s)
    have k1 : (l.eval s).x - l.p0.x ≤ lm * s := by
      have := mono_of_deriv (f := fun u => -(l.eval u).x + lm * u) (f' := fun u => -(l.derivAt u).x + lm * 1) (a := 0) (b := T)
        (fun u => (l.hasDeriv_x u).neg.add ((hasDerivAt_id u).const_mul lm)) (fun u a b => by have := bl u a b; linarith) le_rfl hs0 hsT
      rw [l.eval_zero] at this
      linarith
    have k2 : rm * t ≤ (r.eval t).x - r.p0.x := by
      have := mono_of_deriv (f := fun u => (r.eval u).x + -rm * u) (f' := fun u => (r.derivAt u).x + -rm * 1) (a := 0) (b := U)
        (fun u => (r.hasDeriv_x u).add ((hasDerivAt_id u).const_mul (-rm))) (fun u a b => by have := br u a b; linarith) le_rfl ht0 htT
      rw [r.eval_zero] at this
      linarith
    have : lm * s < 0 := mul_neg_of_neg_of_pos hc.1 hs
    have : 0 < rm * t := mul_pos hc.2 htp
    linarith
  · rw [decide_eq_true_iff] at ht
    -- the vertical speeds
    obtain ⟨ld, hld, hld0, hlb⟩ : ∃ ld, ld = (if lm < 0 then quadMaxBetween l.deriv.2.2.y l.deriv.2.1.y l.deriv.1.y 0 T
        else quadMinBetween l.deriv.2.2.y l.deriv.2.1.y l.deriv.1.y 0 T) ∧ 0 ≤ ld ∧
        ∀ u, 0 ≤ u → u ≤ T → ld * (l.derivAt u).x ≤ lm * (l.derivAt u).y := by
      refine ⟨_, rfl, ?_⟩
      split
      · rename_i hn
        have hb : ∀ u, 0 ≤ u → u ≤ T → (l.derivAt u).y ≤ quadMaxBetween l.deriv.2.2.y l.deriv.2.1.y l.deriv.1.y 0 T := fun u h0 h1 => by
          rw [derivY_eq]; exact quadMax_bound _ _ _ _ _ _ h0 h1
        have h0 := (ml 0 le_rfl a1).trans (hb 0 le_rfl a1)
        refine ⟨h0, fun u c d => ?_⟩
        have := mul_le_mul_of_nonneg_left (bl u c d) h0
        have := mul_le_mul_of_nonpos_left (hb u c d) hn.le
        linarith
      · rename_i hn
        have hb : ∀ u, 0 ≤ u → u ≤ T → quadMinBetween l.deriv.2.2.y l.deriv.2.1.y l.deriv.1.y 0 T ≤ (l.derivAt u).y := fun u h0 h1 => by
          rw [derivY_eq]; exact quadMin_bound _ _ _ _ _ _ h0 h1
        have h0 : 0 ≤ quadMinBetween l.deriv.2.2.y l.deriv.2.1.y l.deriv.1.y 0 T := by
          obtain ⟨u, c, d, e⟩ := quadMin_attained l.deriv.2.2.y l.deriv.2.1.y l.deriv.1.y 0 T a1
          rw [e, ← derivY_eq]; exact ml u c d
        refine ⟨h0, fun u c d => ?_⟩
        have := mul_le_mul_of_nonneg_left (bl u c d) h0
        have := mul_le_mul_of_nonneg_left (hb u c d) (not_lt.1 hn)
        linarith
    obtain ⟨rd, hrd, hrd0, hrb⟩ : ∃ rd, rd = (if rm < 0 then quadMinBetween r.deriv.2.2.y r.deriv.2.1.y r.deriv.1.y 0 U
        else quadMaxBetween r.deriv.2.2.y r.deriv.2.1.y r.deriv.1.y 0 U) ∧ 0 ≤ rd ∧
        ∀ u, 0 ≤ u → u ≤ U → -rd * (r.derivAt u).x ≤ -rm * (r.derivAt u).y := by
      refine ⟨_, rfl, ?_⟩
      split
      · rename_i hn
        have hb : ∀ u, 0 ≤ u → u ≤ U → quadMinBetween r.deriv.2.2.y r.deriv.2.1.y r.deriv.1.y 0 U ≤ (r.derivAt u).y := fun u h0 h1 => by
          rw [derivY_eq]; exact quadMin_bound _ _ _ _ _ _ h0 h1
        have h0 : 0 ≤ quadMinBetween r.deriv.2.2.y r.deriv.2.1.y r.deriv.1.y 0 U := by
          obtain ⟨u, c, d, e⟩ := quadMin_attained r.deriv.2.2.y r.deriv.2.1.y r.deriv.1.y 0 U a2
          rw [e, ← derivY_eq]; exact mr u c d
        refine ⟨h0, fun u c d => ?_⟩
        have := mul_le_mul_of_nonneg_left (br u c d) h0
        have := mul_le_mul_of_nonpos_left (hb u c d) hn.le
        linarith
      · rename_i hn
        have hb : ∀ u, 0 ≤ u → u ≤ U → (r.derivAt u).y ≤ quadMaxBetween r.deriv.2.2.y r.deriv.2.1.y r.deriv.1.y 0 U := fun u h0 h1 => by
          rw [derivY_eq]; exact quadMax_bound _ _ _ _ _ _ h0 h1
        have h0 := (mr 0 le_rfl a2).trans (hb 0 le_rfl a2)
        refine ⟨h0, fun u c d => ?_⟩
        have := mul_le_mul_of_nonneg_left (br u c d) h0
        have := mul_le_mul_of_nonneg_left (hb u c d) (not_lt.1 hn)
        linarith
    rw [← hld, ← hrd] at ht
    have k1 := slope_bound hlb hs0 hsT
    have k2 := slope_bound hrb ht0 htT
    rw [← he, ← hy] at k2
    have hldp : 0 < ld := by
      rcases lt_or_eq_of_le hld0 with h | h
      · exact h
      · exfalso
        rw [← h] at ht k1
        have : 0 ≤ lm := by
          by_contra hc
          have := mul_neg_of_neg_of_pos (not_le.1 hc) hdy
          linarith
        have := mul_nonneg this hrd0
        linarith
    have hrdp : 0 < rd := by
      rcases lt_or_eq_of_le hrd0 with h | h
      · exact h
      · exfalso
        rw [← h] at ht k2
        have : rm ≤ 0 := by
          by_contra hc
          have := mul_pos (not_le.1 hc) hdy
          linarith
        have := mul_nonpos_of_nonpos_of_nonneg this hld0
        linarith
    have j1 := mul_le_mul_of_nonneg_left k1 hrdp.le
    have j2 := mul_le_mul_of_nonneg_left k2 hldp.le
    have j3 := mul_lt_mul_of_pos_right ht hdy
    have hfin : ld * rd * ((l.eval s).x - l.p0.x) < ld * rd * ((r.eval t).x - r.p0.x) := by nlinarith
    have := lt_of_mul_lt_mul_left hfin (mul_pos hldp hrdp).le
    linarith

end Verif.Geom
