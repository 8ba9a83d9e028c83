import Verif.Geom.SolverBounds

/-!
# C93: heights on a curve, with a root finder of limited accuracy

`solve_t_for_y` asks for the roots in the unit interval to within `10⁻¹²` (times the largest coefficient). The other theorems take the result for exact; here it
is within the accuracy that was asked for.
-/

namespace Verif.Geom

/-! ## Specification -/

/-- What `polycool::Cubic::roots_between(0, 1, eps)` promises: what it returns is within `eps` of a root in the unit interval, and it returns something if the
cubic goes from negative to positive. -/
def RootsWithin (roots : ℝ → ℝ → ℝ → ℝ → ℝ → List ℝ) : Prop :=
  ∀ c0 c1 c2 c3 eps, 0 < eps →
    (∀ r ∈ roots c0 c1 c2 c3 eps, 0 ≤ r ∧ r ≤ 1 ∧ ∃ z, 0 ≤ z ∧ z ≤ 1 ∧ cubicAt c0 c1 c2 c3 z = 0 ∧ |r - z| ≤ eps) ∧
    (c0 < 0 → 0 < cubicAt c0 c1 c2 c3 1 → roots c0 c1 c2 c3 eps ≠ [])

/-- A bound of the speed of a coordinate. -/
def speedBound (a b c d : ℝ) : ℝ := 3 * max |b - a| (max |c - b| |d - c|)

/-- The largest horizontal and vertical speed of a curve. -/
def Cubic.speedX (c : Cubic) : ℝ := speedBound c.p0.x c.p1.x c.p2.x c.p3.x
def Cubic.speedY (c : Cubic) : ℝ := speedBound c.p0.y c.p1.y c.p2.y c.p3.y

/-- A bound for the accuracy asked for at any height: `10⁻¹²` times the largest coefficient, or 1. -/
noncomputable def Cubic.accuracy (c : Cubic) : ℝ :=
  1 / 10 ^ 12 * max (max (max (|c.p3.y - c.p0.y|) |3 * (c.p1.y - c.p0.y)|) (max |3 * (c.p2.y - 2 * c.p1.y + c.p0.y)| |c.p3.y - 3 * c.p2.y + 3 * c.p1.y - c.p0.y|)) 1

/-! ## Model -/

open Classical in
/-- curve/mod.rs:336-374 (`solve_t_for_y`); `roots` is `roots_between(0.0, 1.0, _)`. -/
noncomputable def solveTIn (roots : ℝ → ℝ → ℝ → ℝ → ℝ → List ℝ) (c : Cubic) (y : ℝ) : ℝ :=
  if y = c.p0.y then 0
  else if y = c.p3.y then 1
  else
    let c3 := c.p3.y - 3 * c.p2.y + 3 * c.p1.y - c.p0.y
    let c2 := 3 * (c.p2.y - 2 * c.p1.y + c.p0.y)
    let c1 := 3 * (c.p1.y - c.p0.y)
    let c0 := c.p0.y - y
    let eps := 1 / 10 ^ 12 * max (max (max |c0| |c1|) (max |c2| |c3|)) 1
    match roots c0 c1 c2 c3 eps with
    | r :: _ => r
    | [] => if |y - c.p0.y| ≤ |y - c.p3.y| then 0 else 1

/-- curve/mod.rs:377-379 (`solve_x_for_y`). -/
noncomputable def solveXIn (roots : ℝ → ℝ → ℝ → ℝ → ℝ → List ℝ) (c : Cubic) (y : ℝ) : ℝ := (c.eval (solveTIn roots c y)).x

/-- curve/mod.rs:385-394 (`y_subsegment`). -/
noncomputable def ySubIn (roots : ℝ → ℝ → ℝ → ℝ → ℝ → List ℝ) (c : Cubic) (y0 y1 : ℝ) : Cubic :=
  let t0 := solveTIn roots c y0
  let t1 := solveTIn roots c y1
  let r := c.subsegment t0 t1
  ⟨⟨r.p0.x, y0⟩, r.p1, r.p2, ⟨r.p3.x, y1⟩⟩

/-- geom.rs:347-382 (`local_bbox`, `lower`, `upper`), for cubics. -/
noncomputable def lowerIn (roots : ℝ → ℝ → ℝ → ℝ → ℝ → List ℝ) (c : Cubic) (y eps : ℝ) : ℝ :=
  (c.subsegment (solveTIn roots c (max (y - eps) c.p0.y)) (solveTIn roots c (min (y + eps) c.p3.y))).bboxMin - eps
noncomputable def upperIn (roots : ℝ → ℝ → ℝ → ℝ → ℝ → List ℝ) (c : Cubic) (y eps : ℝ) : ℝ :=
  (c.subsegment (solveTIn roots c (max (y - eps) c.p0.y)) (solveTIn roots c (min (y + eps) c.p3.y))).bboxMax + eps

/-! ## Lemmas -/

variable {roots : ℝ → ℝ → ℝ → ℝ → ℝ → List ℝ}

theorem bez2_abs_le {a b c M t : ℝ} (ha : |a| ≤ M) (hb : |b| ≤ M) (hc : |c| ≤ M) (t0 : 0 ≤ t) (t1 : t ≤ 1) : |bez2 a b c t| ≤ M := by
  obtain ⟨a1, a2⟩ := abs_le.1 ha
  obtain ⟨b1, b2⟩ := abs_le.1 hb
  obtain ⟨d1, d2⟩ := abs_le.1 hc
  have p : 0 ≤ (1 - t) ^ 2 := sq_nonneg _
  have q : 0 ≤ 2 * (1 - t) * t := by nlinarith
  have r : 0 ≤ t ^ 2 := sq_nonneg _
  have s : (1 - t) ^ 2 + 2 * (1 - t) * t + t ^ 2 = 1 := by ring
  have e : ∀ m : ℝ, m = (1 - t) ^ 2 * m + 2 * (1 - t) * t * m + t ^ 2 * m := fun m => by ring
  unfold bez2
  rw [abs_le]
  constructor
  · rw [e (-M)]; gcongr
  · rw [e M]; gcongr

theorem bez3_lip (a b c d : ℝ) {s t : ℝ} (s0 : 0 ≤ s) (s1 : s ≤ 1) (t0 : 0 ≤ t) (t1 : t ≤ 1) : |bez3 a b c d s - bez3 a b c d t| ≤ speedBound a b c d * |s - t| := by
  refine diff_le (F := bez3 a b c d) (bez3_hasDeriv a b c d) (a := t) (b := s) fun l l0 l1 => ?_
  have h0 : 0 ≤ t + l * (s - t) := by nlinarith
  have h1 : t + l * (s - t) ≤ 1 := by nlinarith
  have hs : ∀ r : ℝ, |3 * r| = 3 * |r| := fun r => by rw [abs_mul]; norm_num
  unfold speedBound
  refine bez2_abs_le ?_ ?_ ?_ h0 h1 <;> rw [hs] <;> gcongr
  · exact le_max_left _ _
  · exact (le_max_left _ _).trans (le_max_right _ _)
  · exact (le_max_right _ _).trans (le_max_right _ _)

theorem Cubic.lip_x (c : Cubic) {s t : ℝ} (s0 : 0 ≤ s) (s1 : s ≤ 1) (t0 : 0 ≤ t) (t1 : t ≤ 1) : |(c.eval s).x - (c.eval t).x| ≤ c.speedX * |s - t| :=
  bez3_lip _ _ _ _ s0 s1 t0 t1
theorem Cubic.lip_y (c : Cubic) {s t : ℝ} (s0 : 0 ≤ s) (s1 : s ≤ 1) (t0 : 0 ≤ t) (t1 : t ≤ 1) : |(c.eval s).y - (c.eval t).y| ≤ c.speedY * |s - t| :=
  bez3_lip _ _ _ _ s0 s1 t0 t1

theorem speedBound_nonneg (a b c d : ℝ) : 0 ≤ speedBound a b c d := mul_nonneg (by norm_num) ((abs_nonneg _).trans (le_max_left _ _))

theorem Cubic.accuracy_pos (c : Cubic) : 0 < c.accuracy := mul_pos (by norm_num) (lt_of_lt_of_le one_pos (le_max_right _ _))

/-- The parameter found is close to one of the height asked for. -/
theorem solveTIn_close (hr : RootsWithin roots) {c : Cubic} {y : ℝ} (h0 : c.p0.y ≤ y) (h1 : y ≤ c.p3.y) :
    0 ≤ solveTIn roots c y ∧ solveTIn roots c y ≤ 1 ∧ ∃ z, 0 ≤ z ∧ z ≤ 1 ∧ (c.eval z).y = y ∧ |solveTIn roots c y - z| ≤ c.accuracy := by
  have hacc := c.accuracy_pos.le
  unfold solveTIn
  by_cases e0 : y = c.p0.y
  · rw [if_pos e0]
    exact ⟨le_rfl, zero_le_one, 0, le_rfl, zero_le_one, by rw [c.eval_zero, e0], by simpa using hacc⟩
  rw [if_neg e0]
  by_cases e1 : y = c.p3.y
  · rw [if_pos e1]
    exact ⟨zero_le_one, le_rfl, 1, zero_le_one, le_rfl, by rw [c.eval_one, e1], by simpa using hacc⟩
  rw [if_neg e1]
  have hlt0 : c.p0.y < y := lt_of_le_of_ne h0 (Ne.symm e0)
  have hlt1 : y < c.p3.y := lt_of_le_of_ne h1 e1
  obtain ⟨e, he⟩ : ∃ e, e = 1 / 10 ^ 12 * max (max (max |c.p0.y - y| |3 * (c.p1.y - c.p0.y)|)
    (max |3 * (c.p2.y - 2 * c.p1.y + c.p0.y)| |c.p3.y - 3 * c.p2.y + 3 * c.p1.y - c.p0.y|)) 1 := ⟨_, rfl⟩
  have hepos : 0 < e := by rw [he]; exact mul_pos (by norm_num) (lt_of_lt_of_le one_pos (le_max_right _ _))
  have hele : e ≤ c.accuracy := by
    rw [he]
    unfold Cubic.accuracy
    have : |c.p0.y - y| ≤ |c.p3.y - c.p0.y| := by rw [abs_of_neg (by linarith), abs_of_pos (by linarith)]; linarith
    gcongr
  simp only
  rw [← he]
  obtain ⟨k1, k2⟩ := hr (c.p0.y - y) (3 * (c.p1.y - c.p0.y)) (3 * (c.p2.y - 2 * c.p1.y + c.p0.y)) (c.p3.y - 3 * c.p2.y + 3 * c.p1.y - c.p0.y) e hepos
  have hne := k2 (by linarith) (by unfold cubicAt; nlinarith)
  cases hl : roots (c.p0.y - y) (3 * (c.p1.y - c.p0.y)) (3 * (c.p2.y - 2 * c.p1.y + c.p0.y)) (c.p3.y - 3 * c.p2.y + 3 * c.p1.y - c.p0.y) e with
  | nil => exact absurd hl hne
  | cons r l =>
    obtain ⟨r0, r1, z, z0, z1, hz, hd⟩ := k1 r (by rw [hl]; exact List.mem_cons_self)
    refine ⟨r0, r1, z, z0, z1, ?_, hd.trans hele⟩
    unfold cubicAt at hz
    simp only [Cubic.eval, bez3]
    linear_combination hz

/-- Between the parameters that were found there is one close to any exact one. -/
theorem between_close {t0 t1 z0 z1 u A : ℝ} (h0 : |t0 - z0| ≤ A) (h1 : |t1 - z1| ≤ A) (hu0 : z0 ≤ u) (hu1 : u ≤ z1) :
    ∃ s, 0 ≤ s ∧ s ≤ 1 ∧ |t0 + s * (t1 - t0) - u| ≤ A := by
  obtain ⟨a1, a2⟩ := abs_le.1 h0
  obtain ⟨b1, b2⟩ := abs_le.1 h1
  rcases le_or_gt u t0 with h | h
  · exact ⟨0, le_rfl, zero_le_one, by rw [zero_mul, add_zero, abs_le]; constructor <;> linarith⟩
  rcases le_or_gt t1 u with h' | h'
  · exact ⟨1, zero_le_one, le_rfl, by rw [one_mul, abs_le]; constructor <;> linarith⟩
  · have hp : 0 < t1 - t0 := by linarith
    refine ⟨(u - t0) / (t1 - t0), div_nonneg (by linarith) hp.le, (div_le_one hp).2 (by linarith), ?_⟩
    have : t0 + (u - t0) / (t1 - t0) * (t1 - t0) - u = 0 := by field_simp; ring
    rw [this, abs_zero]
    exact (abs_nonneg _).trans h0

/-- The part between two parameters in the unit interval stays in the unit interval. -/
theorem mix_unit {t0 t1 s : ℝ} (a0 : 0 ≤ t0) (a1 : t0 ≤ 1) (b0 : 0 ≤ t1) (b1 : t1 ≤ 1) (s0 : 0 ≤ s) (s1 : s ≤ 1) : 0 ≤ t0 + s * (t1 - t0) ∧ t0 + s * (t1 - t0) ≤ 1 := by
  constructor <;> nlinarith

theorem bbox_eval (c : Cubic) {s : ℝ} (s0 : 0 ≤ s) (s1 : s ≤ 1) : c.bboxMin ≤ (c.eval s).x ∧ (c.eval s).x ≤ c.bboxMax := by
  have hc : IsCompact ((fun t => (c.eval t).x) '' Set.Icc 0 1) := isCompact_Icc.image c.cont_x
  exact ⟨csInf_le hc.bddBelow ⟨s, ⟨s0, s1⟩, rfl⟩, le_csSup hc.bddAbove ⟨s, ⟨s0, s1⟩, rfl⟩⟩

/-! ## Theorems -/

/-- **C93.** `solve_t_for_y` returns a parameter in the unit interval at which the height differs from the one asked for by at most the speed of the curve times the accuracy. -/
theorem C93_height (hr : RootsWithin roots) {c : Cubic} {y : ℝ} (h0 : c.p0.y ≤ y) (h1 : y ≤ c.p3.y) :
    0 ≤ solveTIn roots c y ∧ solveTIn roots c y ≤ 1 ∧ |(c.eval (solveTIn roots c y)).y - y| ≤ c.speedY * c.accuracy := by
  obtain ⟨a, b, z, z0, z1, hz, hd⟩ := solveTIn_close hr h0 h1
  refine ⟨a, b, ?_⟩
  have := (c.lip_y a b z0 z1).trans (mul_le_mul_of_nonneg_left hd (speedBound_nonneg _ _ _ _))
  rw [hz] at this
  exact this

/-- **C93.** `solve_x_for_y` returns the horizontal position of the point at the height, up to the horizontal speed times the accuracy. -/
theorem C93_position (hr : RootsWithin roots) {c : Cubic} (hm : c.Mono) {y : ℝ} {p : Pt} {u : ℝ} (u0 : 0 ≤ u) (u1 : u ≤ 1) (hp : c.eval u = p) (hy : p.y = y) :
    |solveXIn roots c y - p.x| ≤ c.speedX * c.accuracy := by
  have h0 : c.p0.y ≤ y := by rw [← hy, ← hp, ← c.eval_zero]; exact hm.mono le_rfl u0 u1
  have h1 : y ≤ c.p3.y := by rw [← hy, ← hp, ← c.eval_one]; exact hm.mono u0 u1 le_rfl
  obtain ⟨a, b, z, z0, z1, hz, hd⟩ := solveTIn_close hr h0 h1
  have : z = u := hm.inj z0 z1 u0 u1 (by rw [hz, hp, hy])
  subst this
  rw [← hp]
  exact (c.lip_x a b z0 z1).trans (mul_le_mul_of_nonneg_left hd (speedBound_nonneg _ _ _ _))

/-- **C93.** The part of a curve between two heights: it begins and ends exactly at the heights; each of its points is above or below a point of the curve, within the
speed times the accuracy; and it passes close to every point of the curve between the two heights. -/
theorem C93_part (hr : RootsWithin roots) {c : Cubic} (hm : c.Mono) {y0 y1 : ℝ} (h0 : c.p0.y ≤ y0) (h01 : y0 < y1) (h1 : y1 ≤ c.p3.y) :
    (ySubIn roots c y0 y1).p0.y = y0 ∧ (ySubIn roots c y0 y1).p3.y = y1 ∧
    (∀ s, 0 ≤ s → s ≤ 1 → ∃ u, 0 ≤ u ∧ u ≤ 1 ∧ ((ySubIn roots c y0 y1).eval s).x = (c.eval u).x ∧
      |((ySubIn roots c y0 y1).eval s).y - (c.eval u).y| ≤ c.speedY * c.accuracy) ∧
    (∀ u, 0 ≤ u → u ≤ 1 → y0 ≤ (c.eval u).y → (c.eval u).y ≤ y1 → ∃ s, 0 ≤ s ∧ s ≤ 1 ∧
      |((ySubIn roots c y0 y1).eval s).x - (c.eval u).x| ≤ c.speedX * c.accuracy ∧
      |((ySubIn roots c y0 y1).eval s).y - (c.eval u).y| ≤ 2 * (c.speedY * c.accuracy)) := by
  obtain ⟨a0, a1, z0, z00, z01, hz0, hd0⟩ := solveTIn_close hr h0 (h01.le.trans h1)
  obtain ⟨b0, b1, z1, z10, z11, hz1, hd1⟩ := solveTIn_close hr (h0.trans h01.le) h1
  have e0 := (C93_height hr h0 (h01.le.trans h1)).2.2
  have e1 := (C93_height hr (h0.trans h01.le) h1).2.2
  obtain ⟨t0, ht0⟩ : ∃ t, t = solveTIn roots c y0 := ⟨_, rfl⟩
  obtain ⟨t1, ht1⟩ : ∃ t, t = solveTIn roots c y1 := ⟨_, rfl⟩
  rw [← ht0] at a0 a1 hd0 e0
  rw [← ht1] at b0 b1 hd1 e1
  obtain ⟨D, hD⟩ : ∃ D, D = c.speedY * c.accuracy := ⟨_, rfl⟩
  rw [← hD] at e0 e1 ⊢
  have hD0 : 0 ≤ D := (abs_nonneg _).trans e0
  have hev : ∀ s, ((ySubIn roots c y0 y1).eval s).x = (c.eval (t0 + s * (t1 - t0))).x ∧
      ((ySubIn roots c y0 y1).eval s).y = (c.eval (t0 + s * (t1 - t0))).y + ((1 - s) ^ 3 * (y0 - (c.eval t0).y) + s ^ 3 * (y1 - (c.eval t1).y)) := by
    intro s
    rw [← Cubic.subsegment_eval]
    simp only [ySubIn]
    rw [← ht0, ← ht1]
    have p0 : (c.subsegment t0 t1).p0 = c.eval t0 := rfl
    have p3 : (c.subsegment t0 t1).p3 = c.eval t1 := rfl
    rw [← p0, ← p3]
    simp only [Cubic.eval, bez3]
    exact ⟨trivial, by ring⟩
  have hdiff : ∀ s, 0 ≤ s → s ≤ 1 → |((ySubIn roots c y0 y1).eval s).y - (c.eval (t0 + s * (t1 - t0))).y| ≤ D := by
    intro s s0 s1
    rw [(hev s).2, add_sub_cancel_left]
    obtain ⟨m1, m2⟩ := abs_le.1 e0
    obtain ⟨n1, n2⟩ := abs_le.1 e1
    have p : 0 ≤ (1 - s) ^ 3 := pow_nonneg (by linarith) 3
    have q : 0 ≤ s ^ 3 := pow_nonneg s0 3
    have r : (1 - s) ^ 3 + s ^ 3 ≤ 1 := by nlinarith [mul_nonneg s0 (by linarith : 0 ≤ 1 - s)]
    rw [abs_le]
    constructor <;> nlinarith
  refine ⟨rfl, rfl, fun s s0 s1 => ?_, fun u u0 u1 hu0 hu1 => ?_⟩
  · have hm' := mix_unit a0 a1 b0 b1 s0 s1
    exact ⟨_, hm'.1, hm'.2, (hev s).1, hdiff s s0 s1⟩
  · have k0 : z0 ≤ u := (hm.le_iff z00 z01 u0 u1).1 (by rw [hz0]; exact hu0)
    have k1 : u ≤ z1 := (hm.le_iff u0 u1 z10 z11).1 (by rw [hz1]; exact hu1)
    obtain ⟨s, s0, s1, hs⟩ := between_close hd0 hd1 k0 k1
    have hm' := mix_unit a0 a1 b0 b1 s0 s1
    refine ⟨s, s0, s1, ?_, ?_⟩
    · rw [(hev s).1]
      exact (c.lip_x hm'.1 hm'.2 u0 u1).trans (mul_le_mul_of_nonneg_left hs (speedBound_nonneg _ _ _ _))
    · have l1 := (c.lip_y hm'.1 hm'.2 u0 u1).trans (mul_le_mul_of_nonneg_left hs (speedBound_nonneg _ _ _ _))
      have l2 := hdiff s s0 s1
      change _ ≤ c.speedY * c.accuracy at l1
      rw [← hD] at l1
      have := abs_sub_le ((ySubIn roots c y0 y1).eval s).y (c.eval (t0 + s * (t1 - t0))).y (c.eval u).y
      linarith

/-- **C93.** `lower` and `upper` are bounds for the points of the curve whose height differs by at most `eps`, moved horizontally by at most `eps`, up to the horizontal
speed times the accuracy. -/
theorem C93_lower_upper (hr : RootsWithin roots) {c : Cubic} (hm : c.Mono) {y eps u : ℝ} (u0 : 0 ≤ u) (u1 : u ≤ 1)
    (hu : |(c.eval u).y - y| ≤ eps) :
    lowerIn roots c y eps - c.speedX * c.accuracy ≤ (c.eval u).x - eps ∧ (c.eval u).x + eps ≤ upperIn roots c y eps + c.speedX * c.accuracy := by
  obtain ⟨v0, v1⟩ := abs_le.1 hu
  have w0 : c.p0.y ≤ (c.eval u).y := by rw [← c.eval_zero]; exact hm.mono le_rfl u0 u1
  have w1 : (c.eval u).y ≤ c.p3.y := by rw [← c.eval_one]; exact hm.mono u0 u1 le_rfl
  obtain ⟨ya, hya⟩ : ∃ ya, ya = max (y - eps) c.p0.y := ⟨_, rfl⟩
  obtain ⟨yb, hyb⟩ : ∃ yb, yb = min (y + eps) c.p3.y := ⟨_, rfl⟩
  have la : c.p0.y ≤ ya := by rw [hya]; exact le_max_right _ _
  have lb : ya ≤ (c.eval u).y := by rw [hya]; exact max_le (by linarith) w0
  have lc : (c.eval u).y ≤ yb := by rw [hyb]; exact le_min (by linarith) w1
  have ld : yb ≤ c.p3.y := by rw [hyb]; exact min_le_right _ _
  obtain ⟨a0, a1, z0, z00, z01, hz0, hd0⟩ := solveTIn_close hr la (lb.trans w1)
  obtain ⟨b0, b1, z1, z10, z11, hz1, hd1⟩ := solveTIn_close hr (w0.trans lc) ld
  have k0 : z0 ≤ u := (hm.le_iff z00 z01 u0 u1).1 (by rw [hz0]; exact lb)
  have k1 : u ≤ z1 := (hm.le_iff u0 u1 z10 z11).1 (by rw [hz1]; exact lc)
  obtain ⟨s, s0, s1, hs⟩ := between_close hd0 hd1 k0 k1
  have hm' := mix_unit a0 a1 b0 b1 s0 s1
  have hx := (c.lip_x hm'.1 hm'.2 u0 u1).trans (mul_le_mul_of_nonneg_left hs (speedBound_nonneg _ _ _ _))
  rw [← Cubic.subsegment_eval] at hx
  have hb := bbox_eval (c.subsegment (solveTIn roots c ya) (solveTIn roots c yb)) s0 s1
  obtain ⟨x1, x2⟩ := abs_le.1 hx
  unfold lowerIn upperIn
  rw [← hya, ← hyb]
  change -(c.speedX * c.accuracy) ≤ _ at x1
  change _ ≤ c.speedX * c.accuracy at x2
  constructor <;> linarith [hb.1, hb.2]

/-! ## Non-vacuity, and a limit -/

open Classical in
/-- A root finder that keeps the promise and takes roots near zero for zero. -/
theorem snapping_exists : ∃ roots, RootsWithin roots ∧ ∀ c0 c1 c2 c3 eps z, 0 ≤ z → z ≤ eps → z ≤ 1 → cubicAt c0 c1 c2 c3 z = 0 →
    (∀ w, 0 ≤ w → w ≤ 1 → cubicAt c0 c1 c2 c3 w = 0 → w = z) → ¬ (c0 = 0 ∧ c1 = 0 ∧ c2 = 0 ∧ c3 = 0) → ∀ r ∈ roots c0 c1 c2 c3 eps, r = 0 := by
  obtain ⟨sol, hs⟩ := solvesCubics_exists
  refine ⟨fun c0 c1 c2 c3 eps => ((sol c0 c1 c2 c3).filter fun z => decide (0 ≤ z ∧ z ≤ 1 ∧ cubicAt c0 c1 c2 c3 z = 0)).map fun z => if z ≤ eps then 0 else z, ?_, ?_⟩
  · intro c0 c1 c2 c3 eps he
    constructor
    · intro r hr
      obtain ⟨z, hz, rfl⟩ := List.mem_map.1 hr
      obtain ⟨-, hz⟩ := List.mem_filter.1 hz
      obtain ⟨z0, z1, hz⟩ := of_decide_eq_true hz
      by_cases e : z ≤ eps
      · rw [if_pos e]
        exact ⟨le_rfl, zero_le_one, z, z0, z1, hz, by rw [zero_sub, abs_neg, abs_of_nonneg z0]; exact e⟩
      · rw [if_neg e]
        exact ⟨z0, z1, z, z0, z1, hz, by rw [sub_self, abs_zero]; exact he.le⟩
    · intro h0 h1 hn
      have hc : ContinuousOn (cubicAt c0 c1 c2 c3) (Set.Icc 0 1) := by unfold cubicAt; fun_prop
      have := intermediate_value_Icc zero_le_one hc
      have e0 : cubicAt c0 c1 c2 c3 0 = c0 := by unfold cubicAt; ring
      obtain ⟨z, ⟨z0, z1⟩, hz⟩ := this (show (0 : ℝ) ∈ _ from ⟨by rw [e0]; exact h0.le, h1.le⟩)
      have hmem := (hs c0 c1 c2 c3 (fun h => by linarith [h.1]) z).2 hz
      rw [List.map_eq_nil_iff, List.filter_eq_nil_iff] at hn
      exact hn z hmem (decide_eq_true ⟨z0, z1, hz⟩)
  · intro c0 c1 c2 c3 eps z z0 ze z1 hz huniq hnz r hr
    obtain ⟨w, hw, rfl⟩ := List.mem_map.1 hr
    obtain ⟨-, hw⟩ := List.mem_filter.1 hw
    obtain ⟨w0, w1, hw⟩ := of_decide_eq_true hw
    rw [huniq w w0 w1 hw, if_pos ze]

/-- The curve `y = t³`. -/
def flatStart : Cubic := ⟨⟨0, 0⟩, ⟨1, 0⟩, ⟨2, 0⟩, ⟨3, 1⟩⟩

theorem flatStart_eval (t : ℝ) : flatStart.eval t = ⟨3 * t, t ^ 3⟩ := by
  ext <;> simp only [flatStart, Cubic.eval, bez3] <;> ring

theorem flatStart_mono : flatStart.Mono := by
  refine ⟨by norm_num [flatStart], fun t _ _ => ?_⟩
  simp only [flatStart, Cubic.derivAt, Cubic.deriv, bez2]
  nlinarith [sq_nonneg t]

/-- With a root finder of limited accuracy the part of a descending curve between two heights need not be descending: the start is moved down to the height
asked for, but the next control point is not. -/
theorem C93_ascends : ∃ roots c y0 y1, RootsWithin roots ∧ c.Mono ∧ c.p0.y ≤ y0 ∧ y0 < y1 ∧ y1 ≤ c.p3.y ∧ ¬ (ySubIn roots c y0 y1).Mono := by
  obtain ⟨roots, hr, hsnap⟩ := snapping_exists
  have hy1 : ((1 : ℝ) / 10 ^ 12) ^ 3 < 1 := by norm_num
  refine ⟨roots, flatStart, (1 / 10 ^ 12) ^ 3, 1, hr, flatStart_mono, by show (0 : ℝ) ≤ _; positivity, hy1, by show (1 : ℝ) ≤ 1; norm_num, ?_⟩
  have ht1 : solveTIn roots flatStart 1 = 1 := by
    unfold solveTIn
    rw [if_neg (by simp [flatStart]), if_pos (by simp [flatStart])]
  have ht0 : solveTIn roots flatStart ((1 / 10 ^ 12) ^ 3) = 0 := by
    unfold solveTIn
    rw [if_neg (by norm_num [flatStart]), if_neg (by norm_num [flatStart])]
    simp only
    split
    · rename_i r l hl
      refine hsnap _ _ _ _ _ (1 / 10 ^ 12) (by positivity) ?_ (by norm_num) ?_ ?_ ?_ r (by rw [hl]; exact List.mem_cons_self)
      · refine le_mul_of_one_le_right (by positivity) (le_max_right _ _)
      · simp only [flatStart, cubicAt]; norm_num
      · intro w w0 _ hw
        simp only [flatStart, cubicAt] at hw
        have : w ^ 3 = (1 / 10 ^ 12) ^ 3 := by linear_combination hw
        exact (pow_left_inj₀ w0 (by positivity) (by norm_num)).1 this
      · simp only [flatStart]; norm_num
    · rw [if_pos]
      norm_num [flatStart, abs_of_nonneg]
  intro h
  have := h.2 0 le_rfl zero_le_one
  have hsub : ySubIn roots flatStart ((1 / 10 ^ 12) ^ 3) 1 = ⟨⟨((flatStart.subsegment 0 1).p0).x, (1 / 10 ^ 12) ^ 3⟩, (flatStart.subsegment 0 1).p1,
      (flatStart.subsegment 0 1).p2, ⟨((flatStart.subsegment 0 1).p3).x, 1⟩⟩ := by
    unfold ySubIn
    simp only
    rw [ht0, ht1]
  rw [hsub] at this
  simp only [Cubic.derivAt, Cubic.deriv, Cubic.subsegment, bez2, bez3, Cubic.eval, flatStart] at this
  norm_num at this

/-- The hypotheses of C93 are met. -/
example : ∃ roots, RootsWithin roots ∧ flatStart.Mono ∧ flatStart.p0.y ≤ 1 / 8 ∧ (1 / 8 : ℝ) < 1 / 2 ∧ 1 / 2 ≤ flatStart.p3.y := by
  obtain ⟨roots, hr, -⟩ := snapping_exists
  refine ⟨roots, hr, flatStart_mono, ?_⟩
  norm_num [flatStart]

end Verif.Geom
