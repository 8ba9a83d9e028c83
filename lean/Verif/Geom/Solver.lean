import Verif.Geom.EstMono
import Mathlib.Analysis.Calculus.MeanValue

/-!
# C92: the root finder (`solve_cubic_in_unit_interval`)

The theorems about the estimates assume a root finder that finds all roots (`FindsRoots`). This is about the one in the code: it drops leading coefficients that are
small compared with the others, solves the simpler equation and improves the roots by Newton's method, with bounded steps.
-/

namespace Verif.Geom

/-! ## Specification -/

/-- The value of `c0 + c1 t + c2 t² + c3 t³`. -/
def cubicAt (c0 c1 c2 c3 t : ℝ) : ℝ := c0 + c1 * t + c2 * t ^ 2 + c3 * t ^ 3

/-- What `kurbo::common::solve_cubic` promises, in exact arithmetic: exactly the real roots of a polynomial (of degree three or less) that is not zero. -/
def SolvesCubics (sol : ℝ → ℝ → ℝ → ℝ → List ℝ) : Prop :=
  ∀ c0 c1 c2 c3, ¬ (c0 = 0 ∧ c1 = 0 ∧ c2 = 0 ∧ c3 = 0) → ∀ t, t ∈ sol c0 c1 c2 c3 ↔ cubicAt c0 c1 c2 c3 t = 0

/-! ## Model -/

open Classical in
/-- curve/mod.rs:415-422: the leading coefficients that are used. (The comparison of `c3` leaves out `c0` and has `c2` twice.) -/
noncomputable def reduced (c0 c1 c2 c3 : ℝ) : ℝ × ℝ :=
  if |c3| < max (max |c2| |c1|) |c2| / 10 ^ 7 then
    if |c2| < max |c1| |c0| / 10 ^ 7 then (0, 0) else (c2, 0)
  else (c2, c3)

open Classical in
/-- curve/mod.rs:437-448: one step, from the value and the derivative. If the derivative is zero the quotient is infinite; the model takes its sign to be
that of the value (in the code it also depends on the sign of the zero). -/
noncomputable def newtonStep (val deriv : ℝ) : ℝ :=
  if deriv = 0 then SignType.sign val * √|val| else SignType.sign (val / deriv) * min |val / deriv| √|val|

open Classical in
/-- curve/mod.rs:428-452: at most `n` steps from `x`. -/
noncomputable def newton (c0 c1 c2 c3 : ℝ) : ℕ → ℝ → ℝ
  | 0, x => x
  | n + 1, x =>
    if |cubicAt c0 c1 c2 c3 x| ≤ 1 / 10 ^ 14 then x
    else newton c0 c1 c2 c3 n (x - newtonStep (cubicAt c0 c1 c2 c3 x) (3 * c3 * x ^ 2 + 2 * c2 * x + c1))

/-- curve/mod.rs:400-455 (`solve_cubic_in_unit_interval`); `sol` is `kurbo::common::solve_cubic`. -/
noncomputable def solveUnit (sol : ℝ → ℝ → ℝ → ℝ → List ℝ) (c0 c1 c2 c3 : ℝ) : List ℝ :=
  (sol c0 c1 (reduced c0 c1 c2 c3).1 (reduced c0 c1 c2 c3).2).map (newton c0 c1 c2 c3 3)

/-! ## Lemmas -/

variable {c0 c1 c2 c3 : ℝ}

theorem newton_root {x : ℝ} (h : cubicAt c0 c1 c2 c3 x = 0) (n : ℕ) : newton c0 c1 c2 c3 n x = x := by
  cases n with
  | zero => rfl
  | succ n => rw [newton, if_pos (by rw [h, abs_zero]; positivity)]

theorem reduced_zero (h : ¬ (c0 = 0 ∧ c1 = 0 ∧ c2 = 0 ∧ c3 = 0)) : ¬ (c0 = 0 ∧ c1 = 0 ∧ (reduced c0 c1 c2 c3).1 = 0 ∧ (reduced c0 c1 c2 c3).2 = 0) := by
  rintro ⟨rfl, rfl, h1, h2⟩
  unfold reduced at h1 h2
  by_cases e : |c3| < max (max |c2| |0|) |c2| / 10 ^ 7
  · rw [if_pos e] at h1 h2
    by_cases e' : |c2| < max |(0 : ℝ)| |0| / 10 ^ 7
    · simp at e'; exact absurd e' (not_lt.2 (abs_nonneg c2))
    · rw [if_neg e'] at h1
      simp only at h1
      subst h1
      simp at e
      exact absurd e (not_lt.2 (abs_nonneg c3))
  · rw [if_neg e] at h1 h2
    exact h ⟨rfl, rfl, h1, h2⟩

/-- How much the dropped terms can contribute in the unit interval. -/
noncomputable def dropped (c0 c1 c2 c3 : ℝ) : ℝ := |c2 - (reduced c0 c1 c2 c3).1| + |c3 - (reduced c0 c1 c2 c3).2|

theorem dropped_nonneg : 0 ≤ dropped c0 c1 c2 c3 := add_nonneg (abs_nonneg _) (abs_nonneg _)

/-- The dropped terms are small compared with the others. -/
theorem dropped_le {M : ℝ} (h0 : |c0| ≤ M) (h1 : |c1| ≤ M) (h2 : |c2| ≤ M) : dropped c0 c1 c2 c3 ≤ 2 * M / 10 ^ 7 := by
  have hM : 0 ≤ M := (abs_nonneg _).trans h0
  unfold dropped reduced
  by_cases e : |c3| < max (max |c2| |c1|) |c2| / 10 ^ 7
  · have k3 : |c3| ≤ M / 10 ^ 7 := e.le.trans (by gcongr; exact max_le (max_le h2 h1) h2)
    rw [if_pos e]
    by_cases e' : |c2| < max |c1| |c0| / 10 ^ 7
    · have k2 : |c2| ≤ M / 10 ^ 7 := e'.le.trans (by gcongr; exact max_le h1 h0)
      rw [if_pos e']
      simp only [sub_zero]
      linarith
    · rw [if_neg e']
      simp only [sub_self, abs_zero, sub_zero, zero_add]
      have : 0 ≤ M / 10 ^ 7 := by positivity
      linarith
  · rw [if_neg e]
    simp only [sub_self, abs_zero, add_zero]
    positivity

/-- The step is not larger than the root of the value, and leads at most to where the tangent is zero. -/
theorem newtonStep_spec (val deriv : ℝ) : |newtonStep val deriv| ≤ √|val| ∧ ∀ l, 0 ≤ l → l ≤ 1 → |val - deriv * (l * newtonStep val deriv)| ≤ |val| := by
  unfold newtonStep
  have hsign : ∀ r : ℝ, |((SignType.sign r : SignType) : ℝ)| ≤ 1 := by
    intro r
    rcases lt_trichotomy r 0 with h | h | h
    · simp [sign_neg h]
    · simp [h]
    · simp [sign_pos h]
  split_ifs with hd
  · refine ⟨?_, fun l _ _ => by rw [hd]; simp⟩
    rw [abs_mul, abs_of_nonneg (Real.sqrt_nonneg _)]
    exact mul_le_of_le_one_left (Real.sqrt_nonneg _) (hsign _)
  · have hm : 0 ≤ min |val / deriv| √|val| := le_min (abs_nonneg _) (Real.sqrt_nonneg _)
    constructor
    · rw [abs_mul, abs_of_nonneg hm]
      exact (mul_le_of_le_one_left hm (hsign _)).trans (min_le_right _ _)
    · intro l l0 l1
      obtain ⟨m, hm'⟩ : ∃ m, m = min |val / deriv| √|val| := ⟨_, rfl⟩
      rw [← hm'] at hm ⊢
      have h1 : m ≤ |val / deriv| := by rw [hm']; exact min_le_left _ _
      obtain ⟨q, hq⟩ : ∃ q, q = val / deriv := ⟨_, rfl⟩
      rw [← hq] at h1 ⊢
      have hv : val = deriv * q := by rw [hq]; field_simp
      have hk : |q - l * (SignType.sign q * m)| ≤ |q| := by
        rcases lt_trichotomy q 0 with h | h | h
        · rw [sign_neg h, abs_of_neg h] at *
          simp only [SignType.neg_eq_neg_one, SignType.coe_neg_one, neg_mul, one_mul]
          rw [abs_le]; constructor <;> nlinarith
        · simp [h]
        · rw [sign_pos h, abs_of_pos h] at *
          simp only [SignType.pos_eq_one, SignType.coe_one, one_mul]
          rw [abs_le]; constructor <;> nlinarith
      have e : val - deriv * (l * (SignType.sign q * m)) = deriv * (q - l * (SignType.sign q * m)) := by rw [hv]; ring
      rw [e, abs_mul]
      calc |deriv| * |q - l * (SignType.sign q * m)| ≤ |deriv| * |q| := mul_le_mul_of_nonneg_left hk (abs_nonneg _)
        _ = |val| := by rw [hv, abs_mul]

/-- The values on the way to the next iterate. -/
theorem step_value {x K : ℝ} (hK : 7 * |c3| + |c2| ≤ K) (hx : |x| ≤ 2) (hv : |cubicAt c0 c1 c2 c3 x| ≤ 1) {l : ℝ} (l0 : 0 ≤ l) (l1 : l ≤ 1) :
    |cubicAt c0 c1 c2 c3 (x - l * newtonStep (cubicAt c0 c1 c2 c3 x) (3 * c3 * x ^ 2 + 2 * c2 * x + c1))| ≤ (1 + K) * |cubicAt c0 c1 c2 c3 x| := by
  obtain ⟨v, hve⟩ : ∃ v, v = cubicAt c0 c1 c2 c3 x := ⟨_, rfl⟩
  obtain ⟨d, hde⟩ : ∃ d, d = 3 * c3 * x ^ 2 + 2 * c2 * x + c1 := ⟨_, rfl⟩
  rw [← hve, ← hde]
  rw [← hve] at hv
  obtain ⟨h1, h2⟩ := newtonStep_spec v d
  obtain ⟨h, hh⟩ : ∃ h, h = l * newtonStep v d := ⟨_, rfl⟩
  have h3 := h2 l l0 l1
  rw [← hh] at h3 ⊢
  have h4 : |h| ≤ √|v| := by
    rw [hh, abs_mul, abs_of_nonneg l0]
    exact (mul_le_of_le_one_left (abs_nonneg _) l1).trans h1
  have h5 : h ^ 2 ≤ |v| := by
    rw [← sq_abs]
    calc |h| ^ 2 ≤ √|v| ^ 2 := by gcongr
      _ = |v| := Real.sq_sqrt (abs_nonneg _)
  have h6 : |h| ≤ 1 := by
    have : h ^ 2 ≤ 1 := h5.trans hv
    exact (sq_le_one_iff_abs_le_one h).1 this
  have e : cubicAt c0 c1 c2 c3 (x - h) = (v - d * h) + (3 * c3 * x + c2 - c3 * h) * h ^ 2 := by
    rw [hve, hde]; unfold cubicAt; ring
  have h7 : |3 * c3 * x + c2 - c3 * h| ≤ K := by
    have a1 : |3 * c3 * x| ≤ 6 * |c3| := by
      rw [abs_mul, abs_mul]
      norm_num
      nlinarith [abs_nonneg c3]
    have a2 : |c3 * h| ≤ |c3| := by
      rw [abs_mul]; exact mul_le_of_le_one_right (abs_nonneg _) h6
    calc |3 * c3 * x + c2 - c3 * h| ≤ |3 * c3 * x + c2| + |c3 * h| := abs_sub _ _
      _ ≤ |3 * c3 * x| + |c2| + |c3 * h| := by gcongr; exact abs_add_le _ _
      _ ≤ K := by linarith
  rw [e]
  calc |(v - d * h) + (3 * c3 * x + c2 - c3 * h) * h ^ 2| ≤ |v - d * h| + |3 * c3 * x + c2 - c3 * h| * h ^ 2 := by
        refine (abs_add_le _ _).trans ?_
        rw [abs_mul, abs_of_nonneg (sq_nonneg h)]
    _ ≤ |v| + K * |v| := by gcongr; exact (abs_nonneg _).trans h7
    _ = (1 + K) * |v| := by ring

/-- If the derivative is bounded between two points then so is the difference of the values. -/
theorem diff_le {F f : ℝ → ℝ} (hF : ∀ t, HasDerivAt F (f t) t) {a b B : ℝ} (hB : ∀ l, 0 ≤ l → l ≤ 1 → |f (a + l * (b - a))| ≤ B) : |F b - F a| ≤ B * |b - a| := by
  have hs : ∀ u ∈ Set.uIcc a b, ‖f u‖ ≤ B := by
    intro u hu
    by_cases e : a = b
    · subst e
      simp at hu
      have := hB 0 le_rfl zero_le_one
      rw [zero_mul, add_zero] at this
      rw [hu]; exact this
    · have hne : b - a ≠ 0 := sub_ne_zero.2 (Ne.symm e)
      have e2 : u = a + (u - a) / (b - a) * (b - a) := by field_simp; ring
      rw [e2, Real.norm_eq_abs]
      rcases Set.mem_uIcc.1 hu with ⟨h1, h2⟩ | ⟨h1, h2⟩
      · have hp : 0 < b - a := lt_of_le_of_ne (by linarith) (Ne.symm hne)
        exact hB _ (div_nonneg (by linarith) hp.le) ((div_le_one hp).2 (by linarith))
      · have hp : b - a < 0 := lt_of_le_of_ne (by linarith) hne
        exact hB _ (div_nonneg_of_nonpos (by linarith) hp.le) ((div_le_one_of_neg hp).2 (by linarith))
  have := (convex_uIcc a b).norm_image_sub_le_of_norm_hasDerivWithin_le (f := F) (f' := f) (C := B) (fun u _ => (hF u).hasDerivWithinAt) hs Set.left_mem_uIcc Set.right_mem_uIcc
  simpa [Real.norm_eq_abs] using this

/-- Up to the result of Newton's method, a function with the given derivative changes little. -/
theorem newton_drift {F : ℝ → ℝ} (hF : ∀ t, HasDerivAt F (cubicAt c0 c1 c2 c3 t) t) {K V : ℝ} (hK : 7 * |c3| + |c2| ≤ K) (hV : V ≤ 1 / 9) (n : ℕ) :
    ∀ (x v : ℝ), |cubicAt c0 c1 c2 c3 x| ≤ v → (1 + K) ^ n * v ≤ V → |x| + n * (1 / 3) ≤ 2 →
      ∀ y ∈ Set.uIcc x (newton c0 c1 c2 c3 n x), |F y - F x| ≤ n * (V * √V) := by
  have hK0 : 0 ≤ K := le_trans (by positivity) hK
  induction n with
  | zero =>
    intro x v _ _ _ y hy
    simp [newton] at hy
    simp [hy]
  | succ n ih =>
    intro x v hx hv hr y hy
    have hv0 : 0 ≤ v := (abs_nonneg _).trans hx
    have h1 : 1 ≤ (1 + K) ^ n := one_le_pow₀ (by linarith)
    have h2 : (1 + K) * v ≤ V := by
      refine le_trans ?_ hv
      rw [pow_succ]
      nlinarith [mul_nonneg (by linarith : (0 : ℝ) ≤ 1 + K) hv0]
    have h3 : v ≤ V := by nlinarith
    have hV0 : 0 ≤ V := hv0.trans h3
    have hs : √V ≤ 1 / 3 := by
      rw [show (1 / 3 : ℝ) = √(1 / 9) by rw [show (1 / 9 : ℝ) = (1 / 3) ^ 2 by norm_num, Real.sqrt_sq (by norm_num)]]
      exact Real.sqrt_le_sqrt hV
    push_cast at hr ⊢
    have hn0 : (0 : ℝ) ≤ n := Nat.cast_nonneg n
    have hsn : 0 ≤ V * √V := mul_nonneg hV0 (Real.sqrt_nonneg _)
    rw [newton] at hy
    by_cases e : |cubicAt c0 c1 c2 c3 x| ≤ 1 / 10 ^ 14
    · rw [if_pos e] at hy
      simp at hy
      rw [hy, sub_self, abs_zero]
      nlinarith
    · rw [if_neg e] at hy
      obtain ⟨h, hh⟩ : ∃ h, h = newtonStep (cubicAt c0 c1 c2 c3 x) (3 * c3 * x ^ 2 + 2 * c2 * x + c1) := ⟨_, rfl⟩
      have hval := fun l l0 l1 => step_value (x := x) (l := l) hK (by linarith) (hx.trans (h3.trans (hV.trans (by norm_num)))) l0 l1
      have hstep := (newtonStep_spec (cubicAt c0 c1 c2 c3 x) (3 * c3 * x ^ 2 + 2 * c2 * x + c1)).1
      rw [← hh] at hy hval hstep
      have hle : |h| ≤ √V := hstep.trans (Real.sqrt_le_sqrt (hx.trans h3))
      have hval' : ∀ l, 0 ≤ l → l ≤ 1 → |cubicAt c0 c1 c2 c3 (x - l * h)| ≤ (1 + K) * v := fun l l0 l1 =>
        (hval l l0 l1).trans (mul_le_mul_of_nonneg_left hx (by linarith))
      -- the first step
      have first : ∀ y ∈ Set.uIcc x (x - h), |F y - F x| ≤ V * √V := by
        intro y hy
        obtain ⟨m, m0, m1, rfl⟩ : ∃ m, 0 ≤ m ∧ m ≤ 1 ∧ y = x - m * h := by
          have := hy
          rw [← segment_eq_uIcc] at this
          obtain ⟨p, q, p0, q0, pq, rfl⟩ := this
          refine ⟨q, q0, by linarith, ?_⟩
          simp only [smul_eq_mul]
          have : p = 1 - q := by linarith
          rw [this]; ring
        have := diff_le hF (a := x) (b := x - m * h) (B := (1 + K) * v) (fun l l0 l1 => by
          have := hval' (l * m) (mul_nonneg l0 m0) (mul_le_one₀ l1 m0 m1)
          have e : x + l * (x - m * h - x) = x - l * m * h := by ring
          rw [e]; exact this)
        refine this.trans ?_
        have : |x - m * h - x| ≤ √V := by
          have e : x - m * h - x = -(m * h) := by ring
          rw [e, abs_neg, abs_mul, abs_of_nonneg m0]
          exact (mul_le_of_le_one_left (abs_nonneg _) m1).trans hle
        exact mul_le_mul h2 this (abs_nonneg _) hV0
      -- the other steps
      have rest := ih (x - h) ((1 + K) * v) (by simpa using hval' 1 zero_le_one le_rfl) (by rw [pow_succ] at hv; nlinarith) (by
        have : |x - h| ≤ |x| + |h| := abs_sub _ _
        linarith)
      rcases Set.uIcc_subset_uIcc_union_uIcc (b := x - h) hy with hy | hy
      · have := first y hy
        nlinarith
      · have k1 := rest y hy
        have k2 := first (x - h) Set.right_mem_uIcc
        have : |F y - F x| ≤ |F y - F (x - h)| + |F (x - h) - F x| := abs_sub_le _ _ _
        linarith

/-- The result of Newton's method, or the end of the unit interval on the way to it. -/
theorem newton_inside {F : ℝ → ℝ} (hF : ∀ t, HasDerivAt F (cubicAt c0 c1 c2 c3 t) t) {K v : ℝ} (hK : 7 * |c3| + |c2| ≤ K) (hV : (1 + K) ^ 3 * v ≤ 1 / 9) {x : ℝ}
    (h0 : 0 ≤ x) (h1 : x ≤ 1) (hv : |cubicAt c0 c1 c2 c3 x| ≤ v) :
    ∃ r, (r = 0 ∨ r = 1 ∨ (r = newton c0 c1 c2 c3 3 x ∧ 0 ≤ r ∧ r ≤ 1)) ∧ |F r - F x| ≤ 3 * ((1 + K) ^ 3 * v * √((1 + K) ^ 3 * v)) := by
  have key := newton_drift hF hK hV 3 x v hv le_rfl (by rw [abs_of_nonneg h0]; push_cast; linarith)
  push_cast at key
  by_cases hl : newton c0 c1 c2 c3 3 x < 0
  · exact ⟨0, .inl rfl, key 0 (Set.mem_uIcc.2 (.inr ⟨hl.le, h0⟩))⟩
  by_cases hr : 1 < newton c0 c1 c2 c3 3 x
  · exact ⟨1, .inr (.inl rfl), key 1 (Set.mem_uIcc.2 (.inl ⟨h1, hr.le⟩))⟩
  · exact ⟨_, .inr (.inr ⟨rfl, not_lt.1 hl, not_lt.1 hr⟩), key _ Set.right_mem_uIcc⟩

/-! ## Theorems -/

/-- How much a function whose derivative is a given cubic can exceed its values at the ends and at the roots found. -/
noncomputable def shortfall (c0 c1 c2 c3 : ℝ) : ℝ :=
  let V := (1 + (7 * |c3| + |c2|)) ^ 3 * dropped c0 c1 c2 c3
  2 * dropped c0 c1 c2 c3 + 3 * (V * √V)

/-- **C92.** If no coefficient is dropped then the root finder finds exactly the real roots. -/
theorem C92_exact {sol : ℝ → ℝ → ℝ → ℝ → List ℝ} (hs : SolvesCubics sol) (h : ¬ (c0 = 0 ∧ c1 = 0 ∧ c2 = 0 ∧ c3 = 0)) (hc : max |c1| |c2| / 10 ^ 7 ≤ |c3|) (t : ℝ) :
    t ∈ solveUnit sol c0 c1 c2 c3 ↔ cubicAt c0 c1 c2 c3 t = 0 := by
  have e : reduced c0 c1 c2 c3 = (c2, c3) := by
    unfold reduced
    rw [if_neg (not_lt.2 (by rwa [max_eq_left (le_max_left _ _), max_comm]))]
  unfold solveUnit
  rw [e, List.mem_map]
  constructor
  · rintro ⟨x, hx, rfl⟩
    have := (hs _ _ _ _ h x).1 hx
    rw [newton_root this]; exact this
  · intro ht
    exact ⟨t, (hs _ _ _ _ h t).2 ht, newton_root ht 3⟩

/-- **C92.** For the extrema it does not matter much that coefficients are dropped: a function whose derivative is the cubic exceeds its values at the ends of the unit
interval and at the roots found by at most `shortfall`, and likewise for the other side. (`hV`: the steps of Newton's method are bounded by 1/3.) -/
theorem C92_extrema {sol : ℝ → ℝ → ℝ → ℝ → List ℝ} (hs : SolvesCubics sol) (h : ¬ (c0 = 0 ∧ c1 = 0 ∧ c2 = 0 ∧ c3 = 0))
    (hV : (1 + (7 * |c3| + |c2|)) ^ 3 * dropped c0 c1 c2 c3 ≤ 1 / 9) {F : ℝ → ℝ} (hF : ∀ t, HasDerivAt F (cubicAt c0 c1 c2 c3 t) t) {t : ℝ} (t0 : 0 ≤ t) (t1 : t ≤ 1) :
    (∃ r, (r = 0 ∨ r = 1 ∨ (r ∈ solveUnit sol c0 c1 c2 c3 ∧ 0 ≤ r ∧ r ≤ 1)) ∧ F t ≤ F r + shortfall c0 c1 c2 c3) ∧
    (∃ r, (r = 0 ∨ r = 1 ∨ (r ∈ solveUnit sol c0 c1 c2 c3 ∧ 0 ≤ r ∧ r ≤ 1)) ∧ F r - shortfall c0 c1 c2 c3 ≤ F t) := by
  obtain ⟨b2, hb2⟩ : ∃ b, b = (reduced c0 c1 c2 c3).1 := ⟨_, rfl⟩
  obtain ⟨b3, hb3⟩ : ∃ b, b = (reduced c0 c1 c2 c3).2 := ⟨_, rfl⟩
  have hz := reduced_zero h
  rw [← hb2, ← hb3] at hz
  have hδ : dropped c0 c1 c2 c3 = |c2 - b2| + |c3 - b3| := by rw [hb2, hb3]; rfl
  -- the function for the reduced cubic
  obtain ⟨G, hG⟩ : ∃ G : ℝ → ℝ, G = fun t => F t - ((c2 - b2) * t ^ 3 / 3 + (c3 - b3) * t ^ 4 / 4) := ⟨_, rfl⟩
  have hGd : ∀ t, HasDerivAt G (cubicAt c0 c1 b2 b3 t) t := by
    intro t
    have k1 : HasDerivAt (fun t : ℝ => (c2 - b2) * t ^ 3 / 3) ((c2 - b2) * t ^ 2) t := by
      have := ((hasDerivAt_pow 3 t).const_mul (c2 - b2)).div_const 3
      refine this.congr_deriv ?_
      push_cast; ring
    have k2 : HasDerivAt (fun t : ℝ => (c3 - b3) * t ^ 4 / 4) ((c3 - b3) * t ^ 3) t := by
      have := ((hasDerivAt_pow 4 t).const_mul (c3 - b3)).div_const 4
      refine this.congr_deriv ?_
      push_cast; ring
    rw [hG]
    refine ((hF t).sub (k1.add k2)).congr_deriv ?_
    unfold cubicAt; ring
  have hpow : ∀ {u : ℝ}, 0 ≤ u → u ≤ 1 → |(c2 - b2) * u ^ 3 / 3 + (c3 - b3) * u ^ 4 / 4| ≤ dropped c0 c1 c2 c3 := by
    intro u u0 u1
    have p3 : u ^ 3 ≤ 1 := pow_le_one₀ u0 u1
    have p4 : u ^ 4 ≤ 1 := pow_le_one₀ u0 u1
    have q3 : 0 ≤ u ^ 3 := pow_nonneg u0 3
    have q4 : 0 ≤ u ^ 4 := pow_nonneg u0 4
    rw [hδ]
    refine (abs_add_le _ _).trans ?_
    rw [abs_div, abs_div, abs_mul, abs_mul, abs_of_nonneg q3, abs_of_nonneg q4]
    norm_num
    have a := abs_nonneg (c2 - b2)
    have b := abs_nonneg (c3 - b3)
    nlinarith
  have hFG : ∀ {u : ℝ}, 0 ≤ u → u ≤ 1 → |F u - G u| ≤ dropped c0 c1 c2 c3 := by
    intro u u0 u1
    have : F u - G u = (c2 - b2) * u ^ 3 / 3 + (c3 - b3) * u ^ 4 / 4 := by rw [hG]; ring
    rw [this]; exact hpow u0 u1
  -- from a point where the reduced cubic is zero to a candidate
  have hcand : ∀ u, 0 ≤ u → u ≤ 1 → (u = 0 ∨ u = 1 ∨ cubicAt c0 c1 b2 b3 u = 0) →
      ∃ r, (r = 0 ∨ r = 1 ∨ (r ∈ solveUnit sol c0 c1 c2 c3 ∧ 0 ≤ r ∧ r ≤ 1)) ∧ |F r - F u| ≤ shortfall c0 c1 c2 c3 - 2 * dropped c0 c1 c2 c3 := by
    intro u u0 u1 hu
    have hnn : 0 ≤ (1 + (7 * |c3| + |c2|)) ^ 3 * dropped c0 c1 c2 c3 := mul_nonneg (by positivity) dropped_nonneg
    have hsh : shortfall c0 c1 c2 c3 - 2 * dropped c0 c1 c2 c3 =
        3 * ((1 + (7 * |c3| + |c2|)) ^ 3 * dropped c0 c1 c2 c3 * √((1 + (7 * |c3| + |c2|)) ^ 3 * dropped c0 c1 c2 c3)) := by
      unfold shortfall; ring
    rw [hsh]
    have hnn' : 0 ≤ 3 * ((1 + (7 * |c3| + |c2|)) ^ 3 * dropped c0 c1 c2 c3 * √((1 + (7 * |c3| + |c2|)) ^ 3 * dropped c0 c1 c2 c3)) :=
      mul_nonneg (by norm_num) (mul_nonneg hnn (Real.sqrt_nonneg _))
    rcases hu with hu | hu | hu
    · exact ⟨u, .inl hu, by simpa using hnn'⟩
    · exact ⟨u, .inr (.inl hu), by simpa using hnn'⟩
    · have hv : |cubicAt c0 c1 c2 c3 u| ≤ dropped c0 c1 c2 c3 := by
        have e : cubicAt c0 c1 c2 c3 u = (c2 - b2) * u ^ 2 + (c3 - b3) * u ^ 3 := by
          have : cubicAt c0 c1 c2 c3 u = cubicAt c0 c1 b2 b3 u + ((c2 - b2) * u ^ 2 + (c3 - b3) * u ^ 3) := by unfold cubicAt; ring
          rw [this, hu, zero_add]
        rw [e, hδ]
        refine (abs_add_le _ _).trans ?_
        rw [abs_mul, abs_mul, abs_of_nonneg (pow_nonneg u0 2), abs_of_nonneg (pow_nonneg u0 3)]
        have := mul_le_of_le_one_right (abs_nonneg (c2 - b2)) (pow_le_one₀ u0 u1 (n := 2))
        have := mul_le_of_le_one_right (abs_nonneg (c3 - b3)) (pow_le_one₀ u0 u1 (n := 3))
        linarith
      obtain ⟨r, hr, hd⟩ := newton_inside hF le_rfl hV u0 u1 hv
      refine ⟨r, ?_, hd⟩
      rcases hr with hr | hr | ⟨hr, r0, r1⟩
      · exact .inl hr
      · exact .inr (.inl hr)
      · refine .inr (.inr ⟨?_, r0, r1⟩)
        unfold solveUnit
        rw [← hb2, ← hb3, hr]
        exact List.mem_map_of_mem ((hs _ _ _ _ hz u).2 hu)
  have hcont : ContinuousOn G (Set.Icc 0 1) := fun t _ => (hGd t).continuousAt.continuousWithinAt
  constructor
  · obtain ⟨u, hu, hmax⟩ := isCompact_Icc.exists_isMaxOn (α := ℝ) (s := Set.Icc (0 : ℝ) 1) ⟨0, le_rfl, zero_le_one⟩ hcont
    have hle : G t ≤ G u := hmax ⟨t0, t1⟩
    obtain ⟨r, hr, hd⟩ := hcand u hu.1 hu.2 (by
      rcases eq_or_lt_of_le hu.1 with e | e
      · exact .inl e.symm
      rcases eq_or_lt_of_le hu.2 with e' | e'
      · exact .inr (.inl e')
      · exact .inr (.inr ((hmax.isLocalMax (Icc_mem_nhds e e')).hasDerivAt_eq_zero (hGd u))))
    refine ⟨r, hr, ?_⟩
    have k1 := abs_le.1 (hFG t0 t1)
    have k2 := abs_le.1 (hFG hu.1 hu.2)
    have k3 := abs_le.1 hd
    linarith [k1.2, k2.1, k3.1]
  · obtain ⟨u, hu, hmin⟩ := isCompact_Icc.exists_isMinOn (α := ℝ) (s := Set.Icc (0 : ℝ) 1) ⟨0, le_rfl, zero_le_one⟩ hcont
    have hle : G u ≤ G t := hmin ⟨t0, t1⟩
    obtain ⟨r, hr, hd⟩ := hcand u hu.1 hu.2 (by
      rcases eq_or_lt_of_le hu.1 with e | e
      · exact .inl e.symm
      rcases eq_or_lt_of_le hu.2 with e' | e'
      · exact .inr (.inl e')
      · exact .inr (.inr ((hmin.isLocalMin (Icc_mem_nhds e e')).hasDerivAt_eq_zero (hGd u))))
    refine ⟨r, hr, ?_⟩
    have k1 := abs_le.1 (hFG t0 t1)
    have k2 := abs_le.1 (hFG hu.1 hu.2)
    have k3 := abs_le.1 hd
    linarith [k1.1, k2.2, k3.2]

/-- The root finder does not find all roots: it misses the root 1/2 of `(t - 1/2)² + d - 8 d t³` for small `d`. -/
theorem C92_missed {sol : ℝ → ℝ → ℝ → ℝ → List ℝ} (hs : SolvesCubics sol) : ∃ c0 c1 c2 c3 t : ℝ, 0 ≤ t ∧ t ≤ 1 ∧ cubicAt c0 c1 c2 c3 t = 0 ∧
    ¬ (c0 = 0 ∧ c1 = 0 ∧ c2 = 0 ∧ c3 = 0) ∧ solveUnit sol c0 c1 c2 c3 = [] := by
  refine ⟨1 / 4 + 1 / 10 ^ 9, -1, 1, -8 / 10 ^ 9, 1 / 2, by norm_num, by norm_num, by unfold cubicAt; norm_num, by norm_num, ?_⟩
  have e : reduced (1 / 4 + 1 / 10 ^ 9) (-1) 1 (-8 / 10 ^ 9) = (1, 0) := by
    unfold reduced
    rw [if_pos (by norm_num [abs_div]), if_neg (by norm_num [abs_of_pos])]
  unfold solveUnit
  rw [e, List.map_eq_nil_iff, List.eq_nil_iff_forall_not_mem]
  intro t ht
  have := (hs _ _ _ _ (by norm_num) t).1 ht
  unfold cubicAt at this
  nlinarith [sq_nonneg (t - 1 / 2)]

theorem C92_not_all {sol : ℝ → ℝ → ℝ → ℝ → List ℝ} (hs : SolvesCubics sol) : ¬ FindsRoots (solveUnit sol) := by
  intro h
  obtain ⟨c0, c1, c2, c3, t, t0, t1, ht, hz, hn⟩ := C92_missed hs
  have := h c0 c1 c2 c3 hz t t0 t1 ht
  rw [hn] at this
  simp at this

end Verif.Geom
