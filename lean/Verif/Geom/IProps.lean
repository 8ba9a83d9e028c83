import Verif.Geom.IFuel

/-!
# Claims about `intersect_cubics`

* C67: for every pair of descending cubics the comparison ends, covers exactly the common heights, and its definite orders are right.
* C68: for pairs that are never compared after a rotation, its definite orders keep the tolerance and its close pieces are close.
-/

namespace Verif.Geom
open Verif.Curve Filter

/-- The point `⟨x, t⟩` is on the curve. -/
def Cubic.At (c : Cubic) (x t : ℝ) : Prop := ∃ s, 0 ≤ s ∧ s ≤ 1 ∧ c.eval s = ⟨x, t⟩

theorem at_solveX {c : Cubic} (h : c.Mono) {x t : ℝ} (ha : c.At x t) : x = solveX c t ∧ c.p0.y ≤ t ∧ t ≤ c.p3.y := by
  obtain ⟨s, s0, s1, e⟩ := ha
  have := solveX_eval h s0 s1
  rw [e] at this
  refine ⟨this.symm, ?_, ?_⟩
  · have := h.mono le_rfl s0 s1
    rw [Cubic.eval_zero, e] at this; exact this
  · have := h.mono s0 s1 le_rfl
    rw [Cubic.eval_one, e] at this; exact this

theorem at_of_range {c : Cubic} {t : ℝ} (h0 : c.p0.y ≤ t) (h1 : t ≤ c.p3.y) : c.At (solveX c t) t :=
  ⟨_, (solveT_spec h0 h1).1, (solveT_spec h0 h1).2.1, eval_solveT h0 h1⟩

/-- The single common height. -/
theorem touch_ok {tol : ℝ} (htol : 0 < tol) {c0 c1 : Cubic} (h0 : c0.Mono) (h1 : c1.Mono) (he : max c0.p0.y c1.p0.y = min c0.p3.y c1.p3.y)
    {Q : Order → ℝ → Prop} (hex : ∀ t, Q .left t → Q .right t → False) (hl : ∀ t, solveX c0 t + tol < solveX c1 t → Q .left t)
    (hr : ∀ t, solveX c1 t + tol < solveX c0 t → Q .right t) (hi : ∀ t, c0.p0.y ≤ t → t ≤ c0.p3.y → c1.p0.y ≤ t → t ≤ c1.p3.y → |solveX c1 t - solveX c0 t| ≤ tol → Q .ish t) :
    ∃ out, (CurveOrder.new (max c0.p0.y c1.p0.y)).push (min c0.p3.y c1.p3.y)
      (tolOrder (if c0.p0.y = c1.p3.y then (c0.p0.x, c1.p3.x) else (c0.p3.x, c1.p0.x)).1 (if c0.p0.y = c1.p3.y then (c0.p0.x, c1.p3.x) else (c0.p3.x, c1.p0.x)).2 tol)
      = some out ∧ Done Q (max c0.p0.y c1.p0.y) (min c0.p3.y c1.p3.y) out := by
  have p0 : ∀ {c : Cubic}, c.Mono → solveX c c.p0.y = c.p0.x := by
    intro c h
    have := solveX_eval h (t := 0) le_rfl zero_le_one
    rwa [Cubic.eval_zero] at this
  have p3 : ∀ {c : Cubic}, c.Mono → solveX c c.p3.y = c.p3.x := by
    intro c h
    have := solveX_eval h (t := 1) zero_le_one le_rfl
    rwa [Cubic.eval_one] at this
  refine grow_push hex (Or.inr ⟨rfl, rfl, rfl⟩) he.le fun t ht0 ht1 => ?_
  have ht : t = max c0.p0.y c1.p0.y := le_antisymm (ht1.trans he.ge) ht0
  have r0 : c0.p0.y ≤ t := by rw [ht]; exact le_max_left _ _
  have r1 : c1.p0.y ≤ t := by rw [ht]; exact le_max_right _ _
  have r2 : t ≤ c0.p3.y := by rw [ht, he]; exact min_le_left _ _
  have r3 : t ≤ c1.p3.y := by rw [ht, he]; exact min_le_right _ _
  have hx : solveX c0 t = (if c0.p0.y = c1.p3.y then (c0.p0.x, c1.p3.x) else (c0.p3.x, c1.p0.x)).1 ∧
      solveX c1 t = (if c0.p0.y = c1.p3.y then (c0.p0.x, c1.p3.x) else (c0.p3.x, c1.p0.x)).2 := by
    by_cases hc : c0.p0.y = c1.p3.y
    · rw [if_pos hc]
      have e0 : t = c0.p0.y := by linarith
      have e1 : t = c1.p3.y := by linarith
      exact ⟨by rw [e0]; exact p0 h0, by rw [e1]; exact p3 h1⟩
    · rw [if_neg hc]
      have e : t = c0.p3.y ∧ t = c1.p0.y := by
        have m0 := h0.1
        have m1 := h1.1
        rcases max_choice c0.p0.y c1.p0.y with a | a <;> rcases min_choice c0.p3.y c1.p3.y with b | b <;> rw [a, b] at he <;> rw [a] at ht
        · linarith
        · exact absurd he hc
        · exact ⟨by linarith, by linarith⟩
        · linarith
      exact ⟨by rw [e.1]; exact p3 h0, by rw [e.2]; exact p0 h1⟩
  rw [← hx.1, ← hx.2]
  unfold tolOrder
  split
  · exact hl t (by linarith)
  · split
    · exact hr t (by linarith)
    · refine hi t r0 r2 r1 r3 ?_
      rw [abs_le]; constructor <;> linarith

/-- From one step to the whole comparison. -/
theorem whole_ok {solve : ℝ → ℝ → ℝ → ℝ → List ℝ} {tol acc : ℝ} (htol : 0 < tol) {c0 c1 : Cubic} (h0 : c0.Mono) (h1 : c1.Mono)
    (hov : max c0.p0.y c1.p0.y ≤ min c0.p3.y c1.p3.y) {Q : Order → ℝ → Prop} (hex : ∀ t, Q .left t → Q .right t → False)
    (hl : ∀ t, solveX c0 t + tol < solveX c1 t → Q .left t)
    (hr : ∀ t, solveX c1 t + tol < solveX c0 t → Q .right t) (hi : ∀ t, c0.p0.y ≤ t → t ≤ c0.p3.y → c1.p0.y ≤ t → t ≤ c1.p3.y → |solveX c1 t - solveX c0 t| ≤ tol → Q .ish t)
    (hok : max c0.p0.y c1.p0.y < min c0.p3.y c1.p3.y → Ok solve tol acc Q c0 c1 (max c0.p0.y c1.p0.y) (min c0.p3.y c1.p3.y)) :
    ∃ N out, (∀ n ≥ N, intersectCubics solve tol acc n c0 c1 = some out) ∧ Done Q (max c0.p0.y c1.p0.y) (min c0.p3.y c1.p3.y) out := by
  rcases eq_or_lt_of_le hov with he | hlt
  · obtain ⟨out, a, b⟩ := touch_ok htol h0 h1 he hex hl hr hi
    refine ⟨0, out, fun n _ => ?_, b⟩
    unfold intersectCubics
    dsimp only
    rw [if_neg (by rw [he]; exact lt_irrefl _), if_pos he]
    convert a
  · obtain ⟨N, hN⟩ := eventually_atTop.1 (hok hlt)
    obtain ⟨out, a, b⟩ := hN N le_rfl _ (CurveOrder.new _) (Or.inr ⟨rfl, rfl, rfl⟩)
    refine ⟨N, out, fun n hn => ?_, b⟩
    unfold intersectCubics
    dsimp only
    rw [if_pos hlt]
    exact intersectRec_le _ _ _ hn a

/-- **C67.** For every two descending cubics that have a height in common, every tolerance, and every accuracy not above it, the comparison
ends (with one result, however much more fuel is given), the result satisfies the invariants of `CurveOrder` and covers exactly the common heights, and
its definite orders are right: in a "left" piece every point of the first curve is strictly to the left of the point of the second curve at the same height,
and in a "right" piece strictly to the right. -/
theorem C67_definite_orders (solve : ℝ → ℝ → ℝ → ℝ → List ℝ) (hsolve : FindsRoots solve) (tol acc : ℝ) (hacc : 0 < acc) (hat : acc ≤ tol)
    (c0 c1 : Cubic) (h0 : c0.Mono) (h1 : c1.Mono) (hov : max c0.p0.y c1.p0.y ≤ min c0.p3.y c1.p3.y) :
    ∃ N out, (∀ n ≥ N, intersectCubics solve tol acc n c0 c1 = some out) ∧ WF out ∧ out.start = max c0.p0.y c1.p0.y ∧
      Curve.EndsAt out (min c0.p3.y c1.p3.y) ∧
      ∀ p ∈ out.iter, ∀ t x0 x1, p.lo ≤ t → t ≤ p.hi → c0.At x0 t → c1.At x1 t → (p.order = .left → x0 < x1) ∧ (p.order = .right → x1 < x0) := by
  have htol : 0 < tol := hacc.trans_le hat
  obtain ⟨N, out, a, b1, b2, b3, _, b5⟩ := whole_ok (solve := solve) (acc := acc) htol h0 h1 hov (XQ_ex c0 c1)
    (fun t h => show solveX c0 t < solveX c1 t by linarith) (fun t h => show solveX c1 t < solveX c0 t by linarith) (fun _ _ _ _ _ _ => trivial) (fun hlt => by
      obtain ⟨j, hj⟩ : ∃ j : ℕ, (min c0.p3.y c1.p3.y - max c0.p0.y c1.p0.y) / acc < 2 ^ j := pow_unbounded_of_one_lt _ (by norm_num)
      rw [div_lt_iff₀ hacc] at hj
      exact intersect_ok hsolve hacc hat j h0 h1 ⟨le_max_left _ _, hlt.le, min_le_left _ _⟩ ⟨le_max_right _ _, hlt.le, min_le_right _ _⟩ (by linarith))
  refine ⟨N, out, a, b1, b2, b3, fun p hp t x0 x1 ht0 ht1 ha0 ha1 => ?_⟩
  obtain ⟨e0, r0, _⟩ := at_solveX h0 ha0
  obtain ⟨e1, r1, _⟩ := at_solveX h1 ha1
  have hq := b5 p hp t (max_le r0 r1) ht0 ht1
  rw [e0, e1]
  constructor <;> intro ho <;> rw [ho] at hq <;> exact hq

/-- **C67**, corollary: where the curves meet the comparison says that they are close. -/
theorem C67_meeting_is_close (solve : ℝ → ℝ → ℝ → ℝ → List ℝ) (hsolve : FindsRoots solve) (tol acc : ℝ) (hacc : 0 < acc) (hat : acc ≤ tol)
    (c0 c1 : Cubic) (h0 : c0.Mono) (h1 : c1.Mono) (x t : ℝ) (ht0 : c0.At x t) (ht1 : c1.At x t) :
    ∃ N out, (∀ n ≥ N, intersectCubics solve tol acc n c0 c1 = some out) ∧ (∃ p ∈ out.iter, p.lo ≤ t ∧ t ≤ p.hi) ∧
      ∀ p ∈ out.iter, p.lo ≤ t → t ≤ p.hi → p.order = .ish := by
  obtain ⟨_, r0, r1⟩ := at_solveX h0 ht0
  obtain ⟨_, r2, r3⟩ := at_solveX h1 ht1
  obtain ⟨N, out, a, b1, b2, b3, b4⟩ := C67_definite_orders solve hsolve tol acc hacc hat c0 c1 h0 h1 ((max_le r0 r2).trans (le_min r1 r3))
  refine ⟨N, out, a, wf_cover b1 b3 (by rw [b2]; exact max_le r0 r2) (le_min r1 r3), fun p hp hlo hhi => ?_⟩
  have := b4 p hp t x x hlo hhi ht0 ht1
  cases ho : p.order with
  | ish => rfl
  | left => exact absurd (this.1 ho) (lt_irrefl _)
  | right => exact absurd (this.2 ho) (lt_irrefl _)

/-! ## Without rotations -/

/-- Over every range of heights at least `acc` high, one of the curves moves sideways by less than sixteen times the height, or they move in opposite
directions: such pairs are never compared after a rotation. -/
def Upright (acc : ℝ) (c0 c1 : Cubic) : Prop :=
  ∀ u v x0 x1 x0' x1', acc ≤ v - u → c0.At x0 u → c0.At x0' v → c1.At x1 u → c1.At x1' v →
    |x0' - x0| < 16 * (v - u) ∨ |x1' - x1| < 16 * (v - u) ∨ ¬ (0 < x0' - x0 ↔ 0 < x1' - x1)

/-- Some points of the curves, not more than `d` above or below the height `t`, are horizontally not more than `w` apart. -/
def CloseAt (c0 c1 : Cubic) (d w t : ℝ) : Prop :=
  ∃ x0 y0 x1 y1, c0.At x0 y0 ∧ c1.At x1 y1 ∧ |y0 - t| ≤ d ∧ |y1 - t| ≤ d ∧ |x1 - x0| ≤ w

/-- The height `t` is in a range of heights exactly `acc` high on which the estimates of the two curves leave more than `acc` open, and the
curves are not further apart there than these estimates allow. -/
def Unresolved (solve : ℝ → ℝ → ℝ → ℝ → List ℝ) (tol acc : ℝ) (c0 c1 : Cubic) (t : ℝ) : Prop :=
  ∃ u spread, (c0.Spans u (u + acc) ∧ c1.Spans u (u + acc)) ∧ u ≤ t ∧ t ≤ u + acc ∧
    spread = (diffEst solve (ySubsegment c0 u (u + acc)) (ySubsegment c1 u (u + acc)) u (u + acc)).dmax -
      (diffEst solve (ySubsegment c0 u (u + acc)) (ySubsegment c1 u (u + acc)) u (u + acc)).dmin ∧ acc < spread ∧ |solveX c1 t - solveX c0 t| ≤ tol + spread

/-- What the comparison means without rotations. -/
def UQ (solve : ℝ → ℝ → ℝ → ℝ → List ℝ) (tol acc : ℝ) (c0 c1 : Cubic) : Order → ℝ → Prop
  | .left, t => solveX c0 t + tol ≤ solveX c1 t
  | .right, t => solveX c1 t + tol ≤ solveX c0 t
  | .ish, t => CloseAt c0 c1 tol (tol + acc) t ∨ Unresolved solve tol acc c0 c1 t

theorem maxDistance_eval (c d : Cubic) {s : ℝ} (s0 : 0 ≤ s) (s1 : s ≤ 1) :
    |(c.eval s).x - (d.eval s).x| ≤ maxDistance c d ∧ |(c.eval s).y - (d.eval s).y| ≤ maxDistance c d := by
  obtain ⟨m, hm⟩ : ∃ m, m = maxDistance c d := ⟨_, rfl⟩
  have h0 : lInfty c.p0 d.p0 ≤ m := by rw [hm]; exact le_max_of_le_left (le_max_of_le_left (le_max_left _ _))
  have h1 : lInfty c.p1 d.p1 ≤ m := by rw [hm]; exact le_max_of_le_left (le_max_of_le_left (le_max_right _ _))
  have h2 : lInfty c.p2 d.p2 ≤ m := by rw [hm]; exact le_max_of_le_left (le_max_right _ _)
  have h3 : lInfty c.p3 d.p3 ≤ m := by rw [hm]; exact le_max_right _ _
  rw [← hm]
  have key : ∀ a b e f a' b' e' f' : ℝ, |a - a'| ≤ m → |b - b'| ≤ m → |e - e'| ≤ m → |f - f'| ≤ m → |bez3 a b e f s - bez3 a' b' e' f' s| ≤ m := by
    intro a b e f a' b' e' f' k0 k1 k2 k3
    rw [abs_le] at k0 k1 k2 k3
    have hsub : bez3 a b e f s - bez3 a' b' e' f' s = bez3 (a - a') (b - b') (e - e') (f - f') s := by unfold bez3; ring
    rw [hsub, abs_le]
    exact ⟨le_bez3 s0 s1 k0.1 k1.1 k2.1 k3.1, bez3_le s0 s1 k0.2 k1.2 k2.2 k3.2⟩
  simp only [lInfty, max_le_iff] at h0 h1 h2 h3
  exact ⟨key _ _ _ _ _ _ _ _ h0.1 h1.1 h2.1 h3.1, key _ _ _ _ _ _ _ _ h0.2 h1.2 h2.2 h3.2⟩

/-- Such pairs are not compared after a rotation. -/
theorem no_rotation {go : Cubic → Cubic → ℝ → ℝ → CurveOrder ℝ → Option (CurveOrder ℝ)} {tol : ℝ} {c0 c1 : Cubic} {y0 y1 : ℝ} {out : CurveOrder ℝ}
    (hu : |solveX c0 y1 - solveX c0 y0| < 16 * (y1 - y0) ∨ |solveX c1 y1 - solveX c1 y0| < 16 * (y1 - y0) ∨
      ¬ (0 < solveX c0 y1 - solveX c0 y0 ↔ 0 < solveX c1 y1 - solveX c1 y0)) :
    withRotation go tol (ySubsegment c0 y0 y1) (ySubsegment c1 y0 y1) y0 y1 out = none := by
  unfold withRotation
  dsimp only
  rw [sub_p0, sub_p3, sub_p0, sub_p3]
  dsimp only
  by_cases hA : |solveX c0 y1 - solveX c0 y0| < (y1 - y0) * 16 ∨ |solveX c1 y1 - solveX c1 y0| < (y1 - y0) * 16
  · rw [if_pos hA]
  · rw [if_neg hA]
    have hA := not_or.1 hA
    rcases hu with h | h | h
    · exact absurd (by linarith) hA.1
    · exact absurd (by linarith) hA.2
    · rw [if_pos h]

/-- If the boxes are not clearly apart, the curves come close to each other somewhere in the range. -/
theorem box_close {tol : ℝ} (htol : 0 < tol) {c0 c1 : Cubic} (h0 : c0.Mono) (h1 : c1.Mono) {y0 y1 : ℝ} (p0 : c0.Spans y0 y1) (p1 : c1.Spans y0 y1)
    (hb : boxOrder (ySubsegment c0 y0 y1) (ySubsegment c1 y0 y1) tol = .ish) :
    ∃ u v, y0 ≤ u ∧ u ≤ y1 ∧ y0 ≤ v ∧ v ≤ y1 ∧ |solveX c1 v - solveX c0 u| ≤ tol := by
  obtain ⟨⟨a1, a2, a3, a4⟩, ⟨a1', a2', a3', a4'⟩⟩ := box_attained h0 p0
  obtain ⟨⟨b1, b2, b3, b4⟩, ⟨b1', b2', b3', b4'⟩⟩ := box_attained h1 p1
  have hno : ¬ ((ySubsegment c0 y0 y1).bboxMax + tol ≤ (ySubsegment c1 y0 y1).bboxMin) ∧ ¬ ((ySubsegment c1 y0 y1).bboxMax + tol ≤ (ySubsegment c0 y0 y1).bboxMin) := by
    unfold boxOrder at hb
    split at hb
    · exact absurd hb (by simp)
    · next k =>
      split at hb
      · exact absurd hb (by simp)
      · next k' => exact ⟨k, k'⟩
  by_cases hc : (ySubsegment c0 y0 y1).bboxMax < (ySubsegment c1 y0 y1).bboxMin
  · refine ⟨_, _, a2', a3', b2, b3, ?_⟩
    rw [a4', b4, abs_of_pos (by linarith)]
    linarith [not_le.1 hno.1]
  · by_cases hc' : (ySubsegment c1 y0 y1).bboxMax < (ySubsegment c0 y0 y1).bboxMin
    · refine ⟨_, _, a2, a3, b2', b3', ?_⟩
      rw [a4, b4', abs_of_neg (by linarith)]
      linarith [not_le.1 hno.2]
    · -- the boxes overlap: the curves pass through a common horizontal position
      obtain ⟨m, hm⟩ : ∃ m, m = max (ySubsegment c0 y0 y1).bboxMin (ySubsegment c1 y0 y1).bboxMin := ⟨_, rfl⟩
      have k0 := box_bounds h0 p0 le_rfl p0.2.1
      have k1 := box_bounds h1 p1 le_rfl p1.2.1
      have m0 : (ySubsegment c0 y0 y1).bboxMin ≤ m ∧ m ≤ (ySubsegment c0 y0 y1).bboxMax := by
        rw [hm]; exact ⟨le_max_left _ _, max_le (k0.1.trans k0.2) (not_lt.1 hc)⟩
      have m1 : (ySubsegment c1 y0 y1).bboxMin ≤ m ∧ m ≤ (ySubsegment c1 y0 y1).bboxMax := by
        rw [hm]; exact ⟨le_max_right _ _, max_le (not_lt.1 hc') (k1.1.trans k1.2)⟩
      have reach : ∀ {c : Cubic}, c.Mono → c.Spans y0 y1 → (ySubsegment c y0 y1).bboxMin ≤ m → m ≤ (ySubsegment c y0 y1).bboxMax →
          ∃ y, y0 ≤ y ∧ y ≤ y1 ∧ solveX c y = m := by
        intro c hc sp l1 l2
        obtain ⟨⟨s, hs1, e⟩, _⟩ := Cubic.bboxMin_least (ySubsegment c y0 y1)
        obtain ⟨⟨s', hs1', e'⟩, _⟩ := Cubic.bboxMax_greatest (ySubsegment c y0 y1)
        have := intermediate_value_uIcc (a := s) (b := s') (f := fun t => ((ySubsegment c y0 y1).eval t).x) (Cubic.cont_x _).continuousOn
        have hmem : m ∈ Set.uIcc ((fun t => ((ySubsegment c y0 y1).eval t).x) s) ((fun t => ((ySubsegment c y0 y1).eval t).x) s') := by
          rw [e, e', Set.mem_uIcc]; exact Or.inl ⟨l1, l2⟩
        obtain ⟨w, hw, hw2⟩ := this hmem
        have hw01 : 0 ≤ w ∧ w ≤ 1 := by
          rcases Set.mem_uIcc.1 hw with h | h
          · exact ⟨hs1.1.trans h.1, h.2.trans hs1'.2⟩
          · exact ⟨hs1'.1.trans h.1, h.2.trans hs1.2⟩
        obtain ⟨q1, q2, q3⟩ := sub_on hc sp hw01.1 hw01.2
        exact ⟨_, q1, q2, q3.symm.trans hw2⟩
      obtain ⟨u0, v1, v2, v3⟩ := reach h0 p0 m0.1 m0.2
      obtain ⟨u1, w1, w2, w3⟩ := reach h1 p1 m1.1 m1.2
      refine ⟨_, _, v1, v2, w1, w2, ?_⟩
      rw [v3, w3, sub_self, abs_zero]; linarith

section
variable {solve : ℝ → ℝ → ℝ → ℝ → List ℝ} {tol acc : ℝ} (hsolve : FindsRoots solve) (hacc : 0 < acc) (hat : acc ≤ tol)
include hsolve hacc hat

theorem upright_step {c0 c1 : Cubic} (h0 : c0.Mono) (h1 : c1.Mono) (hU : Upright acc c0 c1) {y0 y1 : ℝ} (p0 : c0.Spans y0 y1) (p1 : c1.Spans y0 y1)
    (hsub : ¬ (y1 - y0 ≤ acc) → ∀ u v, y0 ≤ u → u ≤ v → v ≤ y1 → v - u ≤ (y1 - y0) / 2 → Ok solve tol acc (UQ solve tol acc c0 c1) c0 c1 u v) :
    Ok solve tol acc (UQ solve tol acc c0 c1) c0 c1 y0 y1 := by
  have htol : 0 < tol := hacc.trans_le hat
  have on0 : ∀ {t}, y0 ≤ t → t ≤ y1 → c0.At (solveX c0 t) t := fun a b => at_of_range (p0.1.trans a) (b.trans p0.2.2)
  have on1 : ∀ {t}, y0 ≤ t → t ≤ y1 → c1.At (solveX c1 t) t := fun a b => at_of_range (p1.1.trans a) (b.trans p1.2.2)
  refine step_ok (fun t a b => ?_) hsolve htol h0 h1 p0 p1 (fun t _ _ h => h) (fun t _ _ h => h) (fun hd t ht0 ht1 => Or.inl ?_) (fun hh hb t ht0 ht1 => Or.inl ?_)
    (fun t ht0 ht1 h => ?_) (fun ha => Eventually.of_forall fun n s out _ => Or.inl ?_) hacc (fun h _ => hsub h)
  · have a : solveX c0 t + tol ≤ solveX c1 t := a
    have b : solveX c1 t + tol ≤ solveX c0 t := b
    linarith
  · obtain ⟨s, s0, s1, e⟩ := sub_pt h0 p0 ht0 ht1
    obtain ⟨m1, m2⟩ := maxDistance_eval (ySubsegment c0 y0 y1) (ySubsegment c1 y0 y1) s0 s1
    obtain ⟨q1, q2, q3⟩ := sub_on h1 p1 s0 s1
    rw [e] at m1 m2
    dsimp only at m1 m2
    refine ⟨solveX c0 t, t, ((ySubsegment c1 y0 y1).eval s).x, ((ySubsegment c1 y0 y1).eval s).y, on0 ht0 ht1, ?_, by simp [htol.le], ?_, ?_⟩
    · rw [q3]; exact on1 q1 q2
    · rw [abs_sub_comm]; linarith
    · rw [abs_sub_comm]; linarith
  · -- boxes
    have near : ∀ {u}, y0 ≤ u → u ≤ y1 → |u - t| ≤ tol := by
      intro u hu0 hu1
      rw [abs_le]; constructor <;> linarith
    obtain ⟨u, v, u0, u1, v0, v1, huv⟩ := box_close htol h0 h1 p0 p1 hb
    exact ⟨_, _, _, _, on0 u0 u1, on1 v0 v1, near u0 u1, near v0 v1, by linarith⟩
  · have same : |solveX c1 t - solveX c0 t| ≤ tol + acc → CloseAt c0 c1 tol (tol + acc) t := fun h =>
      ⟨_, _, _, _, on0 ht0 ht1, on1 ht0 ht1, by simp [htol.le], by simp [htol.le], h⟩
    rcases h with h | ⟨h, h'⟩
    · exact Or.inl (same h)
    · have ey : y1 = y0 + acc := by linarith
      by_cases hs : (diffEst solve (ySubsegment c0 y0 y1) (ySubsegment c1 y0 y1) y0 y1).dmax - (diffEst solve (ySubsegment c0 y0 y1) (ySubsegment c1 y0 y1) y0 y1).dmin ≤ acc
      · exact Or.inl (same (by linarith))
      · refine Or.inr ⟨y0, _, ⟨by rw [← ey]; exact p0, by rw [← ey]; exact p1⟩, ht0, by linarith, rfl, ?_, ?_⟩
        · rw [← ey]; exact not_le.1 hs
        · rw [← ey]; exact h'
  · -- no rotation
    have hu := hU y0 y1 _ _ _ _ ha (on0 le_rfl p0.2.1) (on0 p0.2.1 le_rfl) (on1 le_rfl p1.2.1) (on1 p1.2.1 le_rfl)
    exact no_rotation hu

theorem upright_ok (j : ℕ) : ∀ (c0 c1 : Cubic), c0.Mono → c1.Mono → Upright acc c0 c1 → ∀ (y0 y1 : ℝ), c0.Spans y0 y1 → c1.Spans y0 y1 → y1 - y0 < acc * 2 ^ j →
    Ok solve tol acc (UQ solve tol acc c0 c1) c0 c1 y0 y1 := by
  have htol : 0 < tol := hacc.trans_le hat
  induction j with
  | zero =>
    intro c0 c1 h0 h1 hU y0 y1 p0 p1 hj
    rw [pow_zero, mul_one] at hj
    exact upright_step hsolve hacc hat h0 h1 hU p0 p1 (fun h => by linarith)
  | succ j ih =>
    intro c0 c1 h0 h1 hU y0 y1 p0 p1 hj
    refine upright_step hsolve hacc hat h0 h1 hU p0 p1 (fun hb u v hu huv hv huv2 => ih c0 c1 h0 h1 hU u v (p0.sub hu huv hv) (p1.sub hu huv hv) ?_)
    rw [pow_succ] at hj
    linarith
end

/-- **C68.** For two descending cubics that are never compared after a rotation the comparison keeps its tolerance: in a "left" piece the first curve is
at least `tol` to the left of the second at every height, in a "right" piece at least `tol` to the right, and in a close piece there are points of the curves,
within `tol` of the height, whose horizontal distance is at most `tol + acc` - except in a range of heights exactly `acc` high on which the
estimates are worse than that, which the code does not divide. -/
theorem C68_tolerance (solve : ℝ → ℝ → ℝ → ℝ → List ℝ) (hsolve : FindsRoots solve) (tol acc : ℝ) (hacc : 0 < acc) (hat : acc ≤ tol)
    (c0 c1 : Cubic) (h0 : c0.Mono) (h1 : c1.Mono) (hU : Upright acc c0 c1) (hov : max c0.p0.y c1.p0.y ≤ min c0.p3.y c1.p3.y) :
    ∃ N out, (∀ n ≥ N, intersectCubics solve tol acc n c0 c1 = some out) ∧ WF out ∧ out.start = max c0.p0.y c1.p0.y ∧
      Curve.EndsAt out (min c0.p3.y c1.p3.y) ∧
      ∀ p ∈ out.iter, ∀ t x0 x1, p.lo ≤ t → t ≤ p.hi → c0.At x0 t → c1.At x1 t →
        (p.order = .left → x0 + tol ≤ x1) ∧ (p.order = .right → x1 + tol ≤ x0) ∧
        (p.order = .ish → CloseAt c0 c1 tol (tol + acc) t ∨ Unresolved solve tol acc c0 c1 t) := by
  have htol : 0 < tol := hacc.trans_le hat
  obtain ⟨N, out, a, b1, b2, b3, _, b5⟩ := whole_ok (solve := solve) (acc := acc) (Q := UQ solve tol acc c0 c1) htol h0 h1 hov
    (fun t a b => by
      have a : solveX c0 t + tol ≤ solveX c1 t := a
      have b : solveX c1 t + tol ≤ solveX c0 t := b
      linarith)
    (fun t h => h.le) (fun t h => h.le)
    (fun t r0 r1 r2 r3 h => Or.inl ⟨_, _, _, _, at_of_range r0 r1, at_of_range r2 r3, by simp [htol.le], by simp [htol.le], by linarith⟩) (fun hlt => by
      obtain ⟨j, hj⟩ : ∃ j : ℕ, (min c0.p3.y c1.p3.y - max c0.p0.y c1.p0.y) / acc < 2 ^ j := pow_unbounded_of_one_lt _ (by norm_num)
      rw [div_lt_iff₀ hacc] at hj
      exact upright_ok hsolve hacc hat j c0 c1 h0 h1 hU _ _ ⟨le_max_left _ _, hlt.le, min_le_left _ _⟩ ⟨le_max_right _ _, hlt.le, min_le_right _ _⟩ (by linarith))
  refine ⟨N, out, a, b1, b2, b3, fun p hp t x0 x1 ht0 ht1 ha0 ha1 => ?_⟩
  obtain ⟨e0, r0, _⟩ := at_solveX h0 ha0
  obtain ⟨e1, r1, _⟩ := at_solveX h1 ha1
  have hq := b5 p hp t (max_le r0 r1) ht0 ht1
  rw [e0, e1]
  refine ⟨?_, ?_, ?_⟩ <;> intro ho <;> rw [ho] at hq <;> exact hq

/-! ## Non-vacuity -/

/-- A straight line as a cubic, from `⟨a, 0⟩` to `⟨b, 3⟩`. -/
noncomputable def lineC (a b : ℝ) : Cubic := ⟨⟨a, 0⟩, ⟨a + (b - a) / 3, 1⟩, ⟨a + 2 * (b - a) / 3, 2⟩, ⟨b, 3⟩⟩

theorem lineC_eval (a b t : ℝ) : (lineC a b).eval t = ⟨a + t * (b - a), 3 * t⟩ := by
  ext <;> simp only [lineC, Cubic.eval, bez3] <;> ring

theorem lineC_mono (a b : ℝ) : (lineC a b).Mono := by
  refine ⟨by simp [lineC], fun t t0 t1 => ?_⟩
  simp only [lineC, Cubic.derivAt, Cubic.deriv, bez2]
  have := mul_nonneg t0 (sub_nonneg.2 t1)
  nlinarith

/-- Two crossing lines meet the hypotheses of C67 and C68, and by C67 their comparison says "close" where they cross. -/
example : ∃ solve N out, FindsRoots solve ∧ Upright 1 (lineC 0 3) (lineC 3 0) ∧
    (∀ n ≥ N, intersectCubics solve 1 1 n (lineC 0 3) (lineC 3 0) = some out) ∧
    (∃ p ∈ out.iter, p.lo ≤ 3 / 2 ∧ 3 / 2 ≤ p.hi) ∧ ∀ p ∈ out.iter, p.lo ≤ 3 / 2 → 3 / 2 ≤ p.hi → p.order = .ish := by
  obtain ⟨solve, hs⟩ := findsRoots_exists
  have hx0 : (lineC 0 3).At (3 / 2) (3 / 2) := ⟨1 / 2, by norm_num, by norm_num, by rw [lineC_eval]; norm_num⟩
  have hx1 : (lineC 3 0).At (3 / 2) (3 / 2) := ⟨1 / 2, by norm_num, by norm_num, by rw [lineC_eval]; norm_num⟩
  obtain ⟨N, out, a, b, c⟩ := C67_meeting_is_close solve hs 1 1 one_pos le_rfl _ _ (lineC_mono 0 3) (lineC_mono 3 0) _ _ hx0 hx1
  refine ⟨solve, N, out, hs, ?_, a, b, c⟩
  intro u v x0 x1 x0' x1' huv ⟨s, _, _, e⟩ ⟨s', _, _, e'⟩ _ _
  rw [lineC_eval] at e e'
  simp only [Pt.mk.injEq] at e e'
  left
  rw [abs_lt]
  constructor <;> linarith [e.1, e.2, e'.1, e'.2]

end Verif.Geom
