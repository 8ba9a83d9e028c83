import Verif.Geom.Model
import Mathlib.Analysis.Calculus.Deriv.MeanValue
import Mathlib.Analysis.Calculus.Deriv.Pow
import Mathlib.Tactic.Linarith
import Mathlib.Tactic.Ring
import Mathlib.Tactic.LinearCombination
import Mathlib.Tactic.FieldSimp
import Mathlib.Tactic.NormNum

/-! Lemmas on cubic Béziers in exact arithmetic (no claims). -/

namespace Verif.Geom

/-- A Bézier whose height never decreases, and is not constant. -/
def Cubic.Mono (c : Cubic) : Prop := c.p0.y < c.p3.y ∧ ∀ t, 0 ≤ t → t ≤ 1 → 0 ≤ (c.derivAt t).y

theorem bez3_hasDeriv (a b c d t : ℝ) : HasDerivAt (bez3 a b c d) (bez2 (3 * (b - a)) (3 * (c - b)) (3 * (d - c)) t) t := by
  have h1 : HasDerivAt (fun t : ℝ => 1 - t) (-1) t := by simpa using (hasDerivAt_id t).const_sub 1
  have h2 : HasDerivAt (fun t : ℝ => t) 1 t := hasDerivAt_id t
  have := ((((h1.pow 3).mul_const a).add (((h1.pow 2).const_mul 3).mul h2 |>.mul_const b)).add
    (((h1.const_mul 3).mul (h2.pow 2)).mul_const c)).add ((h2.pow 3).mul_const d)
  refine HasDerivAt.congr_deriv (this.congr_of_eventuallyEq ?_) ?_
  · exact Filter.Eventually.of_forall fun t => by simp [bez3]
  · simp [bez2]; ring

theorem bez3_continuous (a b c d : ℝ) : Continuous (bez3 a b c d) := by
  unfold bez3; fun_prop

theorem bez3_zero (a b c d : ℝ) : bez3 a b c d 0 = a := by unfold bez3; ring
theorem bez3_one (a b c d : ℝ) : bez3 a b c d 1 = d := by unfold bez3; ring

theorem Cubic.eval_zero (c : Cubic) : c.eval 0 = c.p0 := by
  ext <;> simp only [Cubic.eval, bez3_zero]
theorem Cubic.eval_one (c : Cubic) : c.eval 1 = c.p3 := by
  ext <;> simp only [Cubic.eval, bez3_one]

theorem Cubic.hasDeriv_y (c : Cubic) (t : ℝ) : HasDerivAt (fun t => (c.eval t).y) (c.derivAt t).y t := bez3_hasDeriv _ _ _ _ t
theorem Cubic.hasDeriv_x (c : Cubic) (t : ℝ) : HasDerivAt (fun t => (c.eval t).x) (c.derivAt t).x t := bez3_hasDeriv _ _ _ _ t

theorem Cubic.cont_y (c : Cubic) : Continuous (fun t => (c.eval t).y) := bez3_continuous _ _ _ _
theorem Cubic.cont_x (c : Cubic) : Continuous (fun t => (c.eval t).x) := bez3_continuous _ _ _ _

/-- A differentiable function whose derivative is not negative on an interval increases there. -/
theorem mono_of_deriv {f f' : ℝ → ℝ} {a b : ℝ} (hf : ∀ t, HasDerivAt f (f' t) t) (h : ∀ t, a ≤ t → t ≤ b → 0 ≤ f' t) {s t : ℝ} (ha : a ≤ s)
    (hst : s ≤ t) (hb : t ≤ b) : f s ≤ f t := by
  have hm : MonotoneOn f (Set.Icc a b) := by
    refine monotoneOn_of_deriv_nonneg (convex_Icc a b) (fun t _ => (hf t).continuousAt.continuousWithinAt)
      (fun t _ => (hf t).differentiableAt.differentiableWithinAt) ?_
    intro t ht
    rw [interior_Icc] at ht
    rw [(hf t).deriv]
    exact h t ht.1.le ht.2.le
  exact hm ⟨ha, hst.trans hb⟩ ⟨ha.trans hst, hb⟩ hst

theorem Cubic.Mono.mono {c : Cubic} (h : c.Mono) {s t : ℝ} (hs : 0 ≤ s) (hst : s ≤ t) (ht : t ≤ 1) : (c.eval s).y ≤ (c.eval t).y :=
  mono_of_deriv (f := fun t => (c.eval t).y) c.hasDeriv_y h.2 hs hst ht

/-- A cubic that is constant on an interval is constant. -/
theorem bez3_const {a b c d s t k : ℝ} (hst : s < t) (h : ∀ u, s ≤ u → u ≤ t → bez3 a b c d u = k) : a = b ∧ b = c ∧ c = d := by
  obtain ⟨w, hw, hwp⟩ : ∃ w, t = s + 3 * w ∧ 0 < w := ⟨(t - s) / 3, by ring, by linarith⟩
  have e0 := h s le_rfl hst.le
  have e1 := h (s + w) (by linarith) (by linarith)
  have e2 := h (s + 2 * w) (by linarith) (by linarith)
  have e3 := h (s + 3 * w) (by linarith) (by linarith)
  unfold bez3 at e0 e1 e2 e3
  have h3 : 6 * w ^ 3 * (d - 3 * c + 3 * b - a) = 0 := by linear_combination e3 - 3 * e2 + 3 * e1 - e0
  have w3 : (6 : ℝ) * w ^ 3 ≠ 0 := by positivity
  have k3 : d - 3 * c + 3 * b - a = 0 := (mul_eq_zero.1 h3).resolve_left w3
  have h2 : 6 * w ^ 2 * (c - 2 * b + a) = 0 := by
    linear_combination e2 - 2 * e1 + e0 - (6 * w ^ 2 * s + 6 * w ^ 3) * k3
  have w2 : (6 : ℝ) * w ^ 2 ≠ 0 := by positivity
  have k2 : c - 2 * b + a = 0 := (mul_eq_zero.1 h2).resolve_left w2
  have h1 : 3 * w * (b - a) = 0 := by
    linear_combination e1 - e0 - (3 * s ^ 2 * w + 3 * s * w ^ 2 + w ^ 3) * k3 - 3 * (2 * s * w + w ^ 2) * k2
  have w1 : (3 : ℝ) * w ≠ 0 := by positivity
  have k1 : b - a = 0 := (mul_eq_zero.1 h1).resolve_left w1
  exact ⟨by linear_combination -k1, by linear_combination -k2 - k1, by linear_combination -k3 - 2 * k2 - k1⟩

theorem Cubic.Mono.strict {c : Cubic} (h : c.Mono) {s t : ℝ} (hs : 0 ≤ s) (hst : s < t) (ht : t ≤ 1) : (c.eval s).y < (c.eval t).y := by
  rcases lt_or_eq_of_le (h.mono hs hst.le ht) with h1 | h1
  · exact h1
  · exfalso
    have : c.p0.y = c.p3.y := by
      have hk : c.p0.y = c.p1.y ∧ c.p1.y = c.p2.y ∧ c.p2.y = c.p3.y := ?_
      · rw [hk.1, hk.2.1, hk.2.2]
      refine bez3_const (k := (c.eval s).y) hst fun u hu hu' => ?_
      have h2 : (c.eval s).y ≤ (c.eval u).y := h.mono hs hu (hu'.trans ht)
      have h3 : (c.eval u).y ≤ (c.eval t).y := h.mono (hs.trans hu) hu' ht
      exact le_antisymm (by rw [h1]; exact h3) h2
    exact absurd this (ne_of_lt h.1)

theorem Cubic.Mono.le_iff {c : Cubic} (h : c.Mono) {s t : ℝ} (hs : 0 ≤ s) (hs1 : s ≤ 1) (ht : 0 ≤ t) (ht1 : t ≤ 1) :
    (c.eval s).y ≤ (c.eval t).y ↔ s ≤ t := by
  constructor
  · intro h1
    by_contra hc
    exact absurd h1 (not_le.2 (h.strict ht (not_le.1 hc) hs1))
  · intro h1
    exact h.mono hs h1 ht1

theorem Cubic.Mono.inj {c : Cubic} (h : c.Mono) {s t : ℝ} (hs : 0 ≤ s) (hs1 : s ≤ 1) (ht : 0 ≤ t) (ht1 : t ≤ 1) (he : (c.eval s).y = (c.eval t).y) :
    s = t :=
  le_antisymm ((h.le_iff hs hs1 ht ht1).1 he.le) ((h.le_iff ht ht1 hs hs1).1 he.ge)

/-- Every height between the ends is reached. -/
theorem Cubic.exists_root {c : Cubic} {y : ℝ} (h0 : c.p0.y ≤ y) (h1 : y ≤ c.p3.y) : ∃ t, 0 ≤ t ∧ t ≤ 1 ∧ (c.eval t).y = y := by
  have := intermediate_value_Icc (zero_le_one (α := ℝ)) (f := fun t => (c.eval t).y) c.cont_y.continuousOn
  have hy : y ∈ Set.Icc (c.eval 0).y (c.eval 1).y := by rw [c.eval_zero, c.eval_one]; exact ⟨h0, h1⟩
  obtain ⟨t, ht, hty⟩ := this hy
  exact ⟨t, ht.1, ht.2, hty⟩

theorem solve_set (c : Cubic) (y : ℝ) :
    {t : ℝ | 0 ≤ t ∧ t ≤ 1 ∧ c.p0.y - y + 3 * (c.p1.y - c.p0.y) * t + 3 * (c.p2.y - 2 * c.p1.y + c.p0.y) * t ^ 2 +
      (c.p3.y - 3 * c.p2.y + 3 * c.p1.y - c.p0.y) * t ^ 3 = 0} = {t : ℝ | 0 ≤ t ∧ t ≤ 1 ∧ (c.eval t).y = y} := by
  ext t
  simp only [Set.mem_setOf_eq, Cubic.eval, bez3]
  constructor
  · rintro ⟨a, b, h⟩; exact ⟨a, b, by linear_combination h⟩
  · rintro ⟨a, b, h⟩; exact ⟨a, b, by linear_combination h⟩

theorem solveT_spec {c : Cubic} {y : ℝ} (h0 : c.p0.y ≤ y) (h1 : y ≤ c.p3.y) : 0 ≤ solveT c y ∧ solveT c y ≤ 1 ∧ (c.eval (solveT c y)).y = y := by
  by_cases e0 : y = c.p0.y
  · simp only [solveT, e0, if_true, Cubic.eval_zero]; norm_num
  · by_cases e1 : y = c.p3.y
    · have hne : ¬ c.p3.y = c.p0.y := fun h => e0 (e1.trans h)
      simp only [solveT, e1, if_true, Cubic.eval_one, hne, if_false]; norm_num
    · simp only [solveT, e0, e1, if_false]
      rw [solve_set]
      set S := {t : ℝ | 0 ≤ t ∧ t ≤ 1 ∧ (c.eval t).y = y} with hS
      have hne : S.Nonempty := by
        obtain ⟨t, a, b, e⟩ := c.exists_root h0 h1
        exact ⟨t, a, b, e⟩
      have hcl : IsClosed S := by
        have : S = Set.Icc 0 1 ∩ (fun t => (c.eval t).y) ⁻¹' {y} := by
          ext t; simp [hS, and_assoc]
        rw [this]
        exact isClosed_Icc.inter (isClosed_singleton.preimage c.cont_y)
      have hb : BddBelow S := ⟨0, fun t ht => ht.1⟩
      exact hcl.csInf_mem hne hb

theorem Cubic.Mono.solveT_unique {c : Cubic} (h : c.Mono) {y t : ℝ} (ht0 : 0 ≤ t) (ht1 : t ≤ 1) (hy : (c.eval t).y = y) : solveT c y = t := by
  have h0 : c.p0.y ≤ y := by rw [← hy, ← c.eval_zero]; exact h.mono le_rfl ht0 ht1
  have h1 : y ≤ c.p3.y := by rw [← hy, ← c.eval_one]; exact h.mono ht0 ht1 le_rfl
  obtain ⟨a, b, e⟩ := solveT_spec h0 h1
  exact h.inj a b ht0 ht1 (e.trans hy.symm)

theorem Cubic.Mono.solveT_le {c : Cubic} (h : c.Mono) {y y' : ℝ} (h0 : c.p0.y ≤ y) (hyy : y ≤ y') (h1 : y' ≤ c.p3.y) : solveT c y ≤ solveT c y' := by
  obtain ⟨a, b, e⟩ := solveT_spec h0 (hyy.trans h1)
  obtain ⟨a', b', e'⟩ := solveT_spec (h0.trans hyy) h1
  rw [← h.le_iff a b a' b', e, e']; exact hyy

theorem Cubic.Mono.solveT_lt {c : Cubic} (h : c.Mono) {y y' : ℝ} (h0 : c.p0.y ≤ y) (hyy : y < y') (h1 : y' ≤ c.p3.y) : solveT c y < solveT c y' := by
  refine lt_of_le_of_ne (h.solveT_le h0 hyy.le h1) fun he => ?_
  obtain ⟨_, _, e⟩ := solveT_spec h0 (hyy.le.trans h1)
  obtain ⟨_, _, e'⟩ := solveT_spec (h0.trans hyy.le) h1
  rw [he, e'] at e
  exact absurd e (ne_of_gt hyy)

/-- A subsegment is the same curve, reparametrised. -/
theorem Cubic.subsegment_eval (c : Cubic) (t0 t1 s : ℝ) : (c.subsegment t0 t1).eval s = c.eval (t0 + s * (t1 - t0)) := by
  ext <;> simp only [Cubic.eval, Cubic.subsegment, Cubic.derivAt, Cubic.deriv, bez3, bez2] <;> ring

theorem ySubsegment_eq {c : Cubic} {y0 y1 : ℝ} (h0 : c.p0.y ≤ y0) (h01 : y0 ≤ y1) (h1 : y1 ≤ c.p3.y) :
    ySubsegment c y0 y1 = c.subsegment (solveT c y0) (solveT c y1) := by
  have a := (solveT_spec h0 (h01.trans h1)).2.2
  have b := (solveT_spec (h0.trans h01) h1).2.2
  simp only [ySubsegment, Cubic.subsegment]
  rw [a, b]
  simp only [Cubic.mk.injEq, true_and]
  exact ⟨Pt.ext rfl a.symm, Pt.ext rfl b.symm⟩

end Verif.Geom
