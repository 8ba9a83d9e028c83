import Verif.Pos.Accuracy

/-!
# The weight of horizontal errors (`src/position.rs`:122-144; C72)
-/

namespace Verif.Pos
open Verif.Curve Verif.Geom Verif.Scan

/-- The tangent vectors of the control polygon. -/
def tan0 (c : Cubic) : Pt := ⟨c.p1.x - c.p0.x, c.p1.y - c.p0.y⟩
def tan1 (c : Cubic) : Pt := ⟨c.p2.x - c.p1.x, c.p2.y - c.p1.y⟩
def tan2 (c : Cubic) : Pt := ⟨c.p3.x - c.p2.x, c.p3.y - c.p2.y⟩

/-- One coordinate is positive and the other one negative. -/
def Opposite (x y : ℝ) : Prop := (0 < x ∧ y < 0) ∨ (x < 0 ∧ 0 < y)

open Classical in
/-- One step of the maximum. -/
noncomputable def wstep (w : ℝ) (v : Pt) : ℝ := if Real.sqrt (hypot2 v) ≠ 0 then max w (|v.y| / Real.sqrt (hypot2 v)) else w

theorem hypot2_nonneg (v : Pt) : 0 ≤ hypot2 v := by unfold hypot2; nlinarith [mul_self_nonneg v.x, mul_self_nonneg v.y]

theorem abs_y_le (v : Pt) : |v.y| ≤ Real.sqrt (hypot2 v) := by
  rw [← Real.sqrt_sq_eq_abs]
  exact Real.sqrt_le_sqrt (by unfold hypot2; nlinarith [mul_self_nonneg v.x])

theorem wstep_ge (w : ℝ) (v : Pt) : w ≤ wstep w v := by
  unfold wstep; split
  · exact le_max_left _ _
  · exact le_rfl

theorem wstep_le {w : ℝ} (h : w ≤ 1) (v : Pt) : wstep w v ≤ 1 := by
  unfold wstep; split
  · rename_i hv
    have hp : 0 < Real.sqrt (hypot2 v) := lt_of_le_of_ne (Real.sqrt_nonneg _) (Ne.symm hv)
    exact max_le h ((div_le_one hp).2 (abs_y_le v))
  · exact h

theorem wstep_bound (w : ℝ) (v : Pt) : |v.y| ≤ wstep w v * Real.sqrt (hypot2 v) := by
  unfold wstep; split
  · rename_i hv
    have hp : 0 < Real.sqrt (hypot2 v) := lt_of_le_of_ne (Real.sqrt_nonneg _) (Ne.symm hv)
    have := le_max_right w (|v.y| / Real.sqrt (hypot2 v))
    rwa [div_le_iff₀ hp] at this
  · rename_i hv
    push Not at hv
    have := abs_y_le v
    rw [hv] at this ⊢
    linarith

theorem errorWeight_eq (c : Cubic) : open Classical in errorWeight c =
    if Opposite (tan0 c).x (tan1 c).x ∨ Opposite (tan1 c).x (tan2 c).x then 1 else wstep (wstep (wstep 0 (tan0 c)) (tan1 c)) (tan2 c) := by
  unfold errorWeight Opposite wstep tan0 tan1 tan2
  simp only [List.foldl_cons, List.foldl_nil]

/-- The weight is a bound for the vertical part of the control polygon. -/
theorem weight_tangents (c : Cubic) : 0 ≤ errorWeight c ∧ errorWeight c ≤ 1 ∧
    ∀ v, v = tan0 c ∨ v = tan1 c ∨ v = tan2 c → |v.y| ≤ errorWeight c * Real.sqrt (hypot2 v) := by
  rw [errorWeight_eq]
  split
  · exact ⟨zero_le_one, le_rfl, fun v _ => by rw [one_mul]; exact abs_y_le v⟩
  · have a := wstep_ge 0 (tan0 c)
    have b := wstep_ge (wstep 0 (tan0 c)) (tan1 c)
    have d := wstep_ge (wstep (wstep 0 (tan0 c)) (tan1 c)) (tan2 c)
    refine ⟨by linarith, wstep_le (wstep_le (wstep_le zero_le_one _) _) _, ?_⟩
    rintro v (rfl | rfl | rfl)
    · exact (wstep_bound 0 _).trans (mul_le_mul_of_nonneg_right (b.trans d) (Real.sqrt_nonneg _))
    · exact (wstep_bound _ _).trans (mul_le_mul_of_nonneg_right d (Real.sqrt_nonneg _))
    · exact wstep_bound _ _

/-- The slope that belongs to the weight. -/
noncomputable def cosOf (w : ℝ) : ℝ := Real.sqrt (1 - w ^ 2)

theorem cosOf_sq {w : ℝ} (h0 : 0 ≤ w) (h1 : w ≤ 1) : cosOf w ^ 2 = 1 - w ^ 2 := Real.sq_sqrt (by nlinarith)
theorem cosOf_nonneg (w : ℝ) : 0 ≤ cosOf w := Real.sqrt_nonneg _

/-- The cone of directions of weight at most `w`. -/
theorem cone_iff {w : ℝ} (h0 : 0 ≤ w) (h1 : w ≤ 1) (v : Pt) : |v.y| ≤ w * Real.sqrt (hypot2 v) ↔ cosOf w * |v.y| ≤ w * |v.x| := by
  have hk := cosOf_sq h0 h1
  have hk0 := cosOf_nonneg w
  have hh := hypot2_nonneg v
  have e1 : (w * Real.sqrt (hypot2 v)) ^ 2 = w ^ 2 * (v.x ^ 2 + v.y ^ 2) := by
    rw [mul_pow, Real.sq_sqrt hh]; unfold hypot2; ring
  rw [← abs_of_nonneg (mul_nonneg h0 (Real.sqrt_nonneg (hypot2 v))), ← sq_le_sq, e1]
  rw [← abs_of_nonneg (mul_nonneg hk0 (abs_nonneg v.y)), ← abs_of_nonneg (mul_nonneg h0 (abs_nonneg v.x)), ← sq_le_sq, mul_pow, mul_pow, sq_abs, sq_abs, hk]
  constructor <;> intro h <;> nlinarith

/-- With different middle control points, the horizontal parts of the control polygon have one sign, unless the weight is 1. -/
theorem one_sign (c : Cubic) (hne : c.p1 ≠ c.p2) (hw : errorWeight c ≠ 1) :
    (0 ≤ (tan0 c).x ∧ 0 ≤ (tan1 c).x ∧ 0 ≤ (tan2 c).x) ∨ ((tan0 c).x ≤ 0 ∧ (tan1 c).x ≤ 0 ∧ (tan2 c).x ≤ 0) := by
  obtain ⟨w0, w1, hb⟩ := weight_tangents c
  have hno : ¬ (Opposite (tan0 c).x (tan1 c).x ∨ Opposite (tan1 c).x (tan2 c).x) := by
    intro h
    rw [errorWeight_eq, if_pos h] at hw
    exact hw rfl
  have h1x : (tan1 c).x ≠ 0 := by
    intro h
    have hy : (tan1 c).y ≠ 0 := by
      intro hy
      apply hne
      unfold tan1 at h hy
      exact Pt.ext (by simp only at h; linarith) (by simp only at hy; linarith)
    have := hb (tan1 c) (by simp)
    have e : Real.sqrt (hypot2 (tan1 c)) = |(tan1 c).y| := by
      rw [← Real.sqrt_sq_eq_abs]; congr 1; unfold hypot2; rw [h]; ring
    rw [e] at this
    have hp : 0 < |(tan1 c).y| := abs_pos.2 hy
    have : 1 ≤ errorWeight c := by
      by_contra hc
      push Not at hc
      nlinarith
    exact hw (le_antisymm w1 this)
  unfold Opposite at hno
  push Not at hno
  obtain ⟨⟨a1, a2⟩, a3, a4⟩ := hno
  rcases lt_or_gt_of_ne h1x with h | h
  · right
    refine ⟨?_, h.le, a4 h⟩
    by_contra hc
    push Not at hc
    linarith [a1 hc]
  · left
    refine ⟨?_, h.le, a3 h⟩
    by_contra hc
    push Not at hc
    linarith [a2 hc]

/-- Along the curve. -/
theorem cone_curve (c : Cubic) (hne : c.p1 ≠ c.p2) : ∃ σ : ℝ, (σ = 1 ∨ σ = -1) ∧ ∀ t, 0 ≤ t → t ≤ 1 →
    cosOf (errorWeight c) * |(c.derivAt t).y| ≤ errorWeight c * (σ * (c.derivAt t).x) ∨ errorWeight c = 1 := by
  obtain ⟨w0, w1, hb⟩ := weight_tangents c
  by_cases hw : errorWeight c = 1
  · exact ⟨1, .inl rfl, fun _ _ _ => .inr hw⟩
  obtain ⟨w, hwe⟩ : ∃ w, w = errorWeight c := ⟨_, rfl⟩
  rw [← hwe] at w0 w1 hb ⊢
  have hk0 := cosOf_nonneg w
  obtain ⟨σ, hσ, s0, s1, s2⟩ : ∃ σ : ℝ, (σ = 1 ∨ σ = -1) ∧ σ * (tan0 c).x = |(tan0 c).x| ∧ σ * (tan1 c).x = |(tan1 c).x| ∧ σ * (tan2 c).x = |(tan2 c).x| := by
    rcases one_sign c hne hw with ⟨a, b, d⟩ | ⟨a, b, d⟩
    · exact ⟨1, .inl rfl, by rw [abs_of_nonneg a]; ring, by rw [abs_of_nonneg b]; ring, by rw [abs_of_nonneg d]; ring⟩
    · exact ⟨-1, .inr rfl, by rw [abs_of_nonpos a]; ring, by rw [abs_of_nonpos b]; ring, by rw [abs_of_nonpos d]; ring⟩
  refine ⟨σ, hσ, fun t t0 t1 => .inl ?_⟩
  have k0 := (cone_iff w0 w1 _).1 (hb (tan0 c) (by simp))
  have k1 := (cone_iff w0 w1 _).1 (hb (tan1 c) (by simp))
  have k2 := (cone_iff w0 w1 _).1 (hb (tan2 c) (by simp))
  have ht : 0 ≤ 1 - t := by linarith
  have l0 : 0 ≤ 3 * (1 - t) ^ 2 := by positivity
  have l1 : 0 ≤ 6 * ((1 - t) * t) := by positivity
  have l2 : 0 ≤ 3 * t ^ 2 := by positivity
  have ey : (c.derivAt t).y = 3 * (1 - t) ^ 2 * (tan0 c).y + 6 * ((1 - t) * t) * (tan1 c).y + 3 * t ^ 2 * (tan2 c).y := by
    simp only [Cubic.derivAt, Cubic.deriv, bez2, tan0, tan1, tan2]; ring
  have ex : σ * (c.derivAt t).x = 3 * (1 - t) ^ 2 * |(tan0 c).x| + 6 * ((1 - t) * t) * |(tan1 c).x| + 3 * t ^ 2 * |(tan2 c).x| := by
    rw [← s0, ← s1, ← s2]
    simp only [Cubic.derivAt, Cubic.deriv, bez2, tan0, tan1, tan2]; ring
  have hy : |(c.derivAt t).y| ≤ 3 * (1 - t) ^ 2 * |(tan0 c).y| + 6 * ((1 - t) * t) * |(tan1 c).y| + 3 * t ^ 2 * |(tan2 c).y| := by
    rw [ey]
    refine (abs_add_le _ _).trans ?_
    refine add_le_add ((abs_add_le _ _).trans ?_) ?_
    · rw [abs_mul (3 * (1 - t) ^ 2), abs_mul (6 * ((1 - t) * t)), abs_of_nonneg l0, abs_of_nonneg l1]
    · rw [abs_mul (3 * t ^ 2), abs_of_nonneg l2]
  rw [ex]
  have m0 := mul_le_mul_of_nonneg_left k0 l0
  have m1 := mul_le_mul_of_nonneg_left k1 l1
  have m2 := mul_le_mul_of_nonneg_left k2 l2
  have := mul_le_mul_of_nonneg_left hy hk0
  linarith

/-- **C72.** The weight is between 0 and 1, and unless the middle control points coincide it bounds the steepness of the whole curve: for every
tangent, the vertical part is at most the weight times the length. -/
theorem C72_tangents (c : Cubic) (hne : c.p1 ≠ c.p2) : 0 ≤ errorWeight c ∧ errorWeight c ≤ 1 ∧
    ∀ t, 0 ≤ t → t ≤ 1 → |(c.derivAt t).y| ≤ errorWeight c * Real.sqrt (hypot2 (c.derivAt t)) := by
  obtain ⟨w0, w1, _⟩ := weight_tangents c
  refine ⟨w0, w1, fun t t0 t1 => ?_⟩
  obtain ⟨σ, hσ, h⟩ := cone_curve c hne
  rcases h t t0 t1 with h | h
  · rw [cone_iff w0 w1]
    refine h.trans (mul_le_mul_of_nonneg_left ?_ w0)
    rcases hσ with rfl | rfl
    · rw [one_mul]; exact le_abs_self _
    · rw [neg_one_mul]; exact neg_le_abs _
  · rw [h, one_mul]; exact abs_y_le _

/-- The monotone functions along the curve. -/
theorem cone_chord (c : Cubic) (hne : c.p1 ≠ c.p2) (hw : errorWeight c ≠ 1) : ∃ σ : ℝ, (σ = 1 ∨ σ = -1) ∧
    (∀ s t, 0 ≤ s → s ≤ t → t ≤ 1 → σ * (c.eval s).x ≤ σ * (c.eval t).x) ∧
    ∀ s t, 0 ≤ s → s ≤ t → t ≤ 1 → cosOf (errorWeight c) * |(c.eval t).y - (c.eval s).y| ≤ errorWeight c * (σ * ((c.eval t).x - (c.eval s).x)) := by
  obtain ⟨w0, w1, hb⟩ := weight_tangents c
  obtain ⟨σ, hσ, s0, s1, s2⟩ : ∃ σ : ℝ, (σ = 1 ∨ σ = -1) ∧ 0 ≤ σ * (tan0 c).x ∧ 0 ≤ σ * (tan1 c).x ∧ 0 ≤ σ * (tan2 c).x := by
    rcases one_sign c hne hw with ⟨a, b, d⟩ | ⟨a, b, d⟩
    · exact ⟨1, .inl rfl, by linarith, by linarith, by linarith⟩
    · exact ⟨-1, .inr rfl, by linarith, by linarith, by linarith⟩
  have hcone : ∀ t, 0 ≤ t → t ≤ 1 → cosOf (errorWeight c) * |(c.derivAt t).y| ≤ errorWeight c * (σ * (c.derivAt t).x) ∧ 0 ≤ σ * (c.derivAt t).x := by
    intro t t0 t1
    obtain ⟨w, hwe⟩ : ∃ w, w = errorWeight c := ⟨_, rfl⟩
    rw [← hwe] at w0 w1 hb ⊢
    have hk0 := cosOf_nonneg w
    have abs : ∀ x : ℝ, 0 ≤ σ * x → |x| = σ * x := fun x hx => by
      rcases hσ with rfl | rfl
      · rw [one_mul] at hx ⊢; exact abs_of_nonneg hx
      · rw [neg_one_mul] at hx ⊢; exact abs_of_nonpos (by linarith)
    have k0 := (cone_iff w0 w1 _).1 (hb (tan0 c) (by simp))
    have k1 := (cone_iff w0 w1 _).1 (hb (tan1 c) (by simp))
    have k2 := (cone_iff w0 w1 _).1 (hb (tan2 c) (by simp))
    rw [abs _ s0] at k0
    rw [abs _ s1] at k1
    rw [abs _ s2] at k2
    have ht : 0 ≤ 1 - t := by linarith
    have l0 : 0 ≤ 3 * (1 - t) ^ 2 := by positivity
    have l1 : 0 ≤ 6 * ((1 - t) * t) := by positivity
    have l2 : 0 ≤ 3 * t ^ 2 := by positivity
    have ey : (c.derivAt t).y = 3 * (1 - t) ^ 2 * (tan0 c).y + 6 * ((1 - t) * t) * (tan1 c).y + 3 * t ^ 2 * (tan2 c).y := by
      simp only [Cubic.derivAt, Cubic.deriv, bez2, tan0, tan1, tan2]; ring
    have ex : σ * (c.derivAt t).x = 3 * (1 - t) ^ 2 * (σ * (tan0 c).x) + 6 * ((1 - t) * t) * (σ * (tan1 c).x) + 3 * t ^ 2 * (σ * (tan2 c).x) := by
      simp only [Cubic.derivAt, Cubic.deriv, bez2, tan0, tan1, tan2]; ring
    have hy : |(c.derivAt t).y| ≤ 3 * (1 - t) ^ 2 * |(tan0 c).y| + 6 * ((1 - t) * t) * |(tan1 c).y| + 3 * t ^ 2 * |(tan2 c).y| := by
      rw [ey]
      refine (abs_add_le _ _).trans ?_
      refine add_le_add ((abs_add_le _ _).trans ?_) ?_
      · rw [abs_mul (3 * (1 - t) ^ 2), abs_mul (6 * ((1 - t) * t)), abs_of_nonneg l0, abs_of_nonneg l1]
      · rw [abs_mul (3 * t ^ 2), abs_of_nonneg l2]
    rw [ex]
    have m0 := mul_le_mul_of_nonneg_left k0 l0
    have m1 := mul_le_mul_of_nonneg_left k1 l1
    have m2 := mul_le_mul_of_nonneg_left k2 l2
    have := mul_le_mul_of_nonneg_left hy hk0
    exact ⟨by linarith, by positivity⟩
  refine ⟨σ, hσ, ?_, ?_⟩
  · intro s t hs hst ht
    exact mono_of_deriv (f := fun t => σ * (c.eval t).x) (f' := fun t => σ * (c.derivAt t).x) (fun t => (c.hasDeriv_x t).const_mul σ)
      (fun t a b => (hcone t a b).2) hs hst ht
  · intro s t hs hst ht
    obtain ⟨w, hwe⟩ : ∃ w, w = errorWeight c := ⟨_, rfl⟩
    rw [← hwe] at hcone ⊢
    have hk0 := cosOf_nonneg w
    have up := mono_of_deriv (f := fun t => w * (σ * (c.eval t).x) + cosOf w * (c.eval t).y) (f' := fun t => w * (σ * (c.derivAt t).x) + cosOf w * (c.derivAt t).y)
      (fun t => (((c.hasDeriv_x t).const_mul σ).const_mul w).add ((c.hasDeriv_y t).const_mul (cosOf w)))
      (fun t a b => by have := (hcone t a b).1; have := mul_le_mul_of_nonneg_left (neg_abs_le (c.derivAt t).y) hk0; linarith) hs hst ht
    have dn := mono_of_deriv (f := fun t => w * (σ * (c.eval t).x) - cosOf w * (c.eval t).y) (f' := fun t => w * (σ * (c.derivAt t).x) - cosOf w * (c.derivAt t).y)
      (fun t => (((c.hasDeriv_x t).const_mul σ).const_mul w).sub ((c.hasDeriv_y t).const_mul (cosOf w)))
      (fun t a b => by have := (hcone t a b).1; have := mul_le_mul_of_nonneg_left (le_abs_self (c.derivAt t).y) hk0; linarith) hs hst ht
    rcases abs_cases ((c.eval t).y - (c.eval s).y) with ⟨e, _⟩ | ⟨e, _⟩ <;> rw [e] <;> linarith

/-- The square of the distance of two points. -/
def dist2 (p q : Pt) : ℝ := (p.x - q.x) ^ 2 + (p.y - q.y) ^ 2

theorem meet {w k a b h e : ℝ} (hwk : w ^ 2 + k ^ 2 = 1) (w0 : 0 ≤ w) (k0 : 0 ≤ k) (h0 : 0 ≤ h) (b0 : 0 ≤ b) (hab : a + b = e) (h1 : w * h = k * b)
    (h2 : k * h ≤ w * a) : b ^ 2 + h ^ 2 ≤ (w * e) ^ 2 := by
  have e1 : b ^ 2 + h ^ 2 = (k * h + w * b) ^ 2 := by
    have : h = k * (k * h + w * b) := by linear_combination (-h) * hwk + w * h1
    have hb : b = w * (k * h + w * b) := by linear_combination (-b) * hwk - k * h1
    nlinarith [sq_nonneg (k * h + w * b)]
  rw [e1]
  have : k * h + w * b ≤ w * e := by rw [← hab]; linarith
  have p : 0 ≤ k * h + w * b := by positivity
  exact pow_le_pow_left₀ p this 2

/-- **C72.** What the weight is for: move a point of the curve horizontally by `e`. If the curve passes directly above or below the new place,
then some point of the curve is within the weight times `e` of it. -/
theorem C72_distance (c : Cubic) (hne : c.p1 ≠ c.p2) {s s' e : ℝ} (s0 : 0 ≤ s) (s1 : s ≤ 1) (s0' : 0 ≤ s') (s1' : s' ≤ 1)
    (hx : (c.eval s').x = (c.eval s).x + e) :
    ∃ t, 0 ≤ t ∧ t ≤ 1 ∧ dist2 (c.eval t) ⟨(c.eval s).x + e, (c.eval s).y⟩ ≤ (errorWeight c * e) ^ 2 := by
  by_cases hw : errorWeight c = 1
  · refine ⟨s, s0, s1, ?_⟩
    rw [hw]; simp [dist2]
  obtain ⟨w0, w1, _⟩ := weight_tangents c
  obtain ⟨σ, hσ, hmono, hcone⟩ := cone_chord c hne hw
  obtain ⟨w, hwe⟩ : ∃ w, w = errorWeight c := ⟨_, rfl⟩
  rw [← hwe] at hcone w0 w1 hw ⊢
  have hk := cosOf_sq w0 w1
  have hk0 := cosOf_nonneg w
  have hσ2 : σ * σ = 1 := by rcases hσ with rfl | rfl <;> norm_num
  -- the parameter runs from `s` to `s'`
  obtain ⟨τ, hτ, hse⟩ : ∃ τ : ℝ, (τ = 1 ∧ s ≤ s' ∨ τ = -1 ∧ s' ≤ s) ∧ 0 ≤ τ * (σ * e) := by
    rcases le_total s s' with h | h
    · have := hmono s s' s0 h s1'
      rw [hx] at this
      exact ⟨1, .inl ⟨rfl, h⟩, by linarith⟩
    · have := hmono s' s s0' h s1
      rw [hx] at this
      exact ⟨-1, .inr ⟨rfl, h⟩, by linarith⟩
  have hττ : τ * τ = 1 := by rcases hτ with ⟨rfl, _⟩ | ⟨rfl, _⟩ <;> norm_num
  let a : ℝ → ℝ := fun t => τ * (σ * ((c.eval t).x - (c.eval s).x))
  let h : ℝ → ℝ := fun t => |(c.eval t).y - (c.eval s).y|
  let E : ℝ := τ * (σ * e)
  have ha1 : a s' = E := by simp only [a, E, hx]; ring
  have ha0 : a s = 0 := by simp [a]
  have hprop : ∀ t ∈ Set.uIcc s s', a t ≤ E ∧ cosOf w * h t ≤ w * a t := by
    intro t ht
    rcases hτ with ⟨rfl, hle⟩ | ⟨rfl, hle⟩
    · rw [Set.uIcc_of_le hle] at ht
      have m := hmono t s' (s0.trans ht.1) ht.2 s1'
      have k := hcone s t s0 ht.1 (ht.2.trans s1')
      simp only [a, E, h]
      rw [hx] at m
      exact ⟨by linarith, by linarith⟩
    · rw [Set.uIcc_of_ge hle] at ht
      have m := hmono s' t s0' ht.1 (ht.2.trans s1)
      have k := hcone t s (s0'.trans ht.1) ht.2 s1
      simp only [a, E, h]
      rw [hx] at m
      rw [abs_sub_comm] at k
      exact ⟨by linarith, by linarith⟩
  have hcont : Continuous fun t => w * h t - cosOf w * (E - a t) := by
    have c1 := c.cont_x
    have c2 := c.cont_y
    have hh : Continuous h := (c2.sub continuous_const).abs
    have haa : Continuous a := continuous_const.mul (continuous_const.mul (c1.sub continuous_const))
    exact (continuous_const.mul hh).sub (continuous_const.mul (continuous_const.sub haa))
  have hzero : (0 : ℝ) ∈ (fun t => w * h t - cosOf w * (E - a t)) '' Set.uIcc s s' := by
    apply intermediate_value_uIcc hcont.continuousOn
    rw [Set.mem_uIcc]
    left
    constructor
    · show w * h s - cosOf w * (E - a s) ≤ 0
      rw [ha0]
      have : h s = 0 := by simp [h]
      rw [this]
      have := mul_nonneg hk0 hse
      simp only [E]; linarith
    · show 0 ≤ w * h s' - cosOf w * (E - a s')
      rw [ha1, sub_self, mul_zero, sub_zero]
      exact mul_nonneg w0 (abs_nonneg _)
  obtain ⟨t, ht, hz⟩ := hzero
  obtain ⟨q1, q2⟩ := hprop t ht
  have hrange : 0 ≤ t ∧ t ≤ 1 := by
    rcases Set.mem_uIcc.1 ht with h | h
    · exact ⟨s0.trans h.1, h.2.trans s1'⟩
    · exact ⟨s0'.trans h.1, h.2.trans s1⟩
  refine ⟨t, hrange.1, hrange.2, ?_⟩
  have key := meet (w := w) (k := cosOf w) (a := a t) (b := E - a t) (h := h t) (e := E) (by linarith) w0 hk0 (abs_nonneg _) (by linarith) (by ring)
    (by dsimp only at hz; linarith) q2
  have r1 : (E - a t) ^ 2 = ((c.eval t).x - ((c.eval s).x + e)) ^ 2 := by
    have : E - a t = τ * (σ * (((c.eval s).x + e) - (c.eval t).x)) := by simp only [E, a]; ring
    rw [this, mul_pow, mul_pow, sq τ, sq σ, hττ, hσ2]; ring
  have r2 : (h t) ^ 2 = ((c.eval t).y - (c.eval s).y) ^ 2 := sq_abs _
  have r3 : (w * E) ^ 2 = (w * e) ^ 2 := by
    have : w * E = τ * (σ * (w * e)) := by simp only [E]; ring
    rw [this, mul_pow, mul_pow, sq τ, sq σ, hττ, hσ2]; ring
  rw [r1, r2, r3] at key
  exact key

/-- **C72.** Hence an accepted parabola on an interval that is not short is within the accuracy of the curve, wherever the curve passes directly above or
below it. -/
theorem C72_accuracy {solve : ℝ → ℝ → ℝ → ℝ → List ℝ} (hs : FindsRoots solve) {c : Cubic} (h : c.Mono) {acc y0 y1 y : ℝ} (sp : c.Spans y0 y1) (hlt : y0 < y1)
    (hf : Fits solve acc y0 y1 c) (hlong : y0 + acc < y1) (hne : (recentred c y0 y1).p1 ≠ (recentred c y0 y1).p2) (h0 : y0 ≤ y) (h1 : y ≤ y1)
    {y' : ℝ} (h0' : y0 ≤ y') (h1' : y' ≤ y1) (hx : solveX c y' = (fromCubic solve (recentred c y0 y1)).eval (y - (y0 + y1) / 2)) :
    ∃ z, y0 ≤ z ∧ z ≤ y1 ∧ dist2 ⟨solveX c z, z⟩ ⟨(fromCubic solve (recentred c y0 y1)).eval (y - (y0 + y1) / 2), y⟩ < acc ^ 2 := by
  obtain ⟨s, s0, s1, e⟩ := sub_pt h sp h0 h1
  obtain ⟨s', s0', s1', e'⟩ := sub_pt h sp h0' h1'
  have ev : ∀ t, (recentred c y0 y1).eval t = ⟨((ySubsegment c y0 y1).eval t).x, ((ySubsegment c y0 y1).eval t).y - (y0 + y1) / 2⟩ := fun t => by
    rw [recentred_eq, rescale_eval, mul_one]
  obtain ⟨q, hq⟩ : ∃ q, q = (fromCubic solve (recentred c y0 y1)).eval (y - (y0 + y1) / 2) := ⟨_, rfl⟩
  have hes : (recentred c y0 y1).eval s = ⟨solveX c y, y - (y0 + y1) / 2⟩ := by rw [ev, e]
  have hes' : (recentred c y0 y1).eval s' = ⟨solveX c y', y' - (y0 + y1) / 2⟩ := by rw [ev, e']
  obtain ⟨t, t0, t1, ht⟩ := C72_distance (recentred c y0 y1) hne s0 s1 s0' s1' (e := q - solveX c y) (by rw [hes, hes', hx, ← hq]; ring)
  rw [hes] at ht
  obtain ⟨b1, b2, b3⟩ := sub_on h sp t0 t1
  refine ⟨_, b1, b2, ?_⟩
  rw [← hq]
  have near := parab_near hs h sp hlt h0 h1
  rw [← hq] at near
  obtain ⟨w0, _, _⟩ := weight_tangents (recentred c y0 y1)
  have hacc : parabError solve c y0 y1 * errorWeight (recentred c y0 y1) < acc := by
    rcases hf with hf | hf
    · exact absurd hf (not_le.2 hlong)
    · exact hf
  have hw : |errorWeight (recentred c y0 y1) * (q - solveX c y)| < acc := by
    rw [abs_mul, abs_of_nonneg w0, abs_sub_comm]
    refine lt_of_le_of_lt ?_ hacc
    rw [mul_comm]
    exact mul_le_mul_of_nonneg_right near w0
  have hpos : 0 ≤ acc := (abs_nonneg _).trans hw.le
  have h2 : (errorWeight (recentred c y0 y1) * (q - solveX c y)) ^ 2 < acc ^ 2 := by
    rw [← sq_abs]; exact pow_lt_pow_left₀ hw (abs_nonneg _) (by norm_num)
  refine lt_of_le_of_lt ?_ h2
  refine le_trans (le_of_eq ?_) ht
  unfold dist2
  rw [ev]
  dsimp only
  rw [← b3]; ring

/-- A curve whose middle control points coincide, on which it turns round. -/
def turning : Cubic := ⟨⟨0, 0⟩, ⟨4, 3⟩, ⟨4, 3⟩, ⟨0, 6⟩⟩

/-- C72: why coincident middle control points are excluded: this curve has a vertical tangent, but its weight is 3/5, because the change of direction is
not noticed. -/
theorem C72_turning : errorWeight turning = 3 / 5 ∧ (turning.derivAt (1 / 2)).x = 0 ∧ 0 < (turning.derivAt (1 / 2)).y := by
  have h5 : Real.sqrt 25 = 5 := by rw [show (25 : ℝ) = 5 ^ 2 by norm_num]; exact Real.sqrt_sq (by norm_num)
  refine ⟨?_, ?_, ?_⟩
  · rw [errorWeight_eq, if_neg]
    · simp only [wstep, tan0, tan1, tan2, turning, hypot2]
      norm_num [h5]
    · simp only [Opposite, tan0, tan1, tan2, turning]; norm_num
  · simp only [turning, Cubic.derivAt, Cubic.deriv, bez2]; norm_num
  · simp only [turning, Cubic.derivAt, Cubic.deriv, bez2]; norm_num

/-- Non-vacuity of C72: a curve with a weight strictly between 0 and 1. -/
example : let c : Cubic := ⟨⟨0, 0⟩, ⟨4, 3⟩, ⟨8, 6⟩, ⟨12, 6⟩⟩; c.p1 ≠ c.p2 ∧ errorWeight c = 3 / 5 := by
  have h5 : Real.sqrt 25 = 5 := by rw [show (25 : ℝ) = 5 ^ 2 by norm_num]; exact Real.sqrt_sq (by norm_num)
  have h4 : Real.sqrt 16 = 4 := by rw [show (16 : ℝ) = 4 ^ 2 by norm_num]; exact Real.sqrt_sq (by norm_num)
  refine ⟨?_, ?_⟩
  · intro h; have := congrArg Pt.x h; norm_num at this
  · rw [errorWeight_eq, if_neg]
    · simp only [wstep, tan0, tan1, tan2, hypot2]
      norm_num [h5, h4]
    · simp only [Opposite, tan0, tan1, tan2]; norm_num

end Verif.Pos
