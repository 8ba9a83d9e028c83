import Verif.Geom.Bezier

/-! Segments: specification and lemmas for C42. -/

namespace Verif.Geom

namespace Seg

/-- The points of a segment: the line from its start to its end, or the points of its Bézier curve. -/
def On : Seg → Pt → Prop
  | line p0 p1, p => ∃ t, 0 ≤ t ∧ t ≤ 1 ∧ p = p0.affine p1 t
  | cubic c, p => ∃ t, 0 ≤ t ∧ t ≤ 1 ∧ p = c.eval t

/-- A segment that goes downwards: not horizontal, and its height never decreases. -/
def Down : Seg → Prop
  | line p0 p1 => p0.y < p1.y
  | cubic c => c.Mono

/-- The horizontal positions at height `y` of the Minkowski sum of a segment with the square of side `2 eps`. -/
def Near (s : Seg) (y eps : ℝ) : Set ℝ := {x | ∃ p, s.On p ∧ |p.y - y| ≤ eps ∧ |x - p.x| ≤ eps}

end Seg

theorem affine_on (p0 p1 : Pt) (h : p0.y < p1.y) (y : ℝ) :
    p0.affine p1 ((y - p0.y) / (p1.y - p0.y)) = ⟨p0.x + (y - p0.y) / (p1.y - p0.y) * (p1.x - p0.x), y⟩ := by
  have : p1.y - p0.y ≠ 0 := by linarith
  ext
  · simp only [Pt.affine]; ring
  · simp only [Pt.affine]; field_simp; ring

theorem Seg.atY_line {p0 p1 : Pt} (h : p0.y < p1.y) (y : ℝ) :
    (Seg.line p0 p1).atY y = p0.x + (y - p0.y) / (p1.y - p0.y) * (p1.x - p0.x) := by
  simp only [Seg.atY, Seg.Horizontal, h.ne, if_false]

theorem Seg.on_iff (s : Seg) (h : s.Down) (y x : ℝ) (h0 : s.start.y ≤ y) (h1 : y ≤ s.stop.y) : s.On ⟨x, y⟩ ↔ x = s.atY y := by
  cases s with
  | line p0 p1 =>
    have hd : p0.y < p1.y := h
    rw [Seg.atY_line hd]
    constructor
    · rintro ⟨t, t0, t1, e⟩
      simp only [Pt.affine, Pt.mk.injEq] at e
      have hne : p1.y - p0.y ≠ 0 := by linarith
      have ht : (y - p0.y) / (p1.y - p0.y) = t := by rw [e.2]; field_simp; ring
      rw [ht, e.1]; ring
    · intro e
      refine ⟨(y - p0.y) / (p1.y - p0.y), div_nonneg (sub_nonneg.2 h0) (by linarith), ?_, ?_⟩
      · rw [div_le_one (by linarith)]
        have : y ≤ p1.y := h1
        linarith
      · rw [affine_on _ _ hd, e]
  | cubic c =>
    have hd : c.Mono := h
    obtain ⟨a, b, e⟩ := solveT_spec (c := c) h0 h1
    simp only [Seg.atY, solveX]
    constructor
    · rintro ⟨t, t0, t1, et⟩
      have := hd.solveT_unique t0 t1 (show (c.eval t).y = y by rw [← et])
      rw [this, ← et]
    · intro ex
      exact ⟨_, a, b, by rw [ex]; exact Pt.ext rfl e.symm⟩

theorem Seg.on_y (s : Seg) (h : s.Down) (p : Pt) (hp : s.On p) : s.start.y ≤ p.y ∧ p.y ≤ s.stop.y := by
  cases s with
  | line p0 p1 =>
    obtain ⟨t, t0, t1, e⟩ := hp
    have hd : p0.y < p1.y := h
    rw [e]
    simp only [Pt.affine, Seg.start, Seg.stop]
    constructor <;> nlinarith
  | cubic c =>
    obtain ⟨t, t0, t1, e⟩ := hp
    have hd : c.Mono := h
    rw [e]
    refine ⟨?_, ?_⟩
    · show c.p0.y ≤ _
      rw [← congrArg Pt.y c.eval_zero]; exact hd.mono le_rfl t0 t1
    · show _ ≤ c.p3.y
      rw [← congrArg Pt.y c.eval_one]; exact hd.mono t0 t1 le_rfl

/-- A Bézier coordinate is a convex combination of the control values. -/
theorem bez3_le {a b c d m t : ℝ} (t0 : 0 ≤ t) (t1 : t ≤ 1) (ha : a ≤ m) (hb : b ≤ m) (hc : c ≤ m) (hd : d ≤ m) : bez3 a b c d t ≤ m := by
  have h1 : 0 ≤ 1 - t := by linarith
  have e : m = bez3 m m m m t := by unfold bez3; ring
  rw [e]
  unfold bez3
  have := mul_le_mul_of_nonneg_left ha (pow_nonneg h1 3)
  have := mul_le_mul_of_nonneg_left hb (mul_nonneg (mul_nonneg (by norm_num : (0 : ℝ) ≤ 3) (pow_nonneg h1 2)) t0)
  have := mul_le_mul_of_nonneg_left hc (mul_nonneg (mul_nonneg (by norm_num : (0 : ℝ) ≤ 3) h1) (pow_nonneg t0 2))
  have := mul_le_mul_of_nonneg_left hd (pow_nonneg t0 3)
  linarith

theorem bez3_neg (a b c d t : ℝ) : bez3 (-a) (-b) (-c) (-d) t = -bez3 a b c d t := by unfold bez3; ring

theorem le_bez3 {a b c d m t : ℝ} (t0 : 0 ≤ t) (t1 : t ≤ 1) (ha : m ≤ a) (hb : m ≤ b) (hc : m ≤ c) (hd : m ≤ d) : m ≤ bez3 a b c d t := by
  have := bez3_le (a := -a) (b := -b) (c := -c) (d := -d) (m := -m) t0 t1 (by linarith) (by linarith) (by linarith) (by linarith)
  rw [bez3_neg] at this
  linarith

theorem Seg.on_x (s : Seg) (p : Pt) (hp : s.On p) : s.minX ≤ p.x ∧ p.x ≤ s.maxX := by
  cases s with
  | line p0 p1 =>
    obtain ⟨t, t0, t1, e⟩ := hp
    rw [e]
    simp only [Pt.affine, Seg.minX, Seg.maxX]
    have a1 := min_le_left p0.x p1.x
    have a2 := min_le_right p0.x p1.x
    have a3 := le_max_left p0.x p1.x
    have a4 := le_max_right p0.x p1.x
    constructor <;> nlinarith
  | cubic c =>
    obtain ⟨t, t0, t1, e⟩ := hp
    rw [e]
    simp only [Cubic.eval, Seg.minX, Seg.maxX]
    exact ⟨le_bez3 t0 t1 ((min_le_left _ _).trans ((min_le_left _ _).trans (min_le_left _ _)))
        ((min_le_left _ _).trans ((min_le_left _ _).trans (min_le_right _ _))) ((min_le_left _ _).trans (min_le_right _ _)) (min_le_right _ _),
      bez3_le t0 t1 ((le_max_left _ _).trans ((le_max_left _ _).trans (le_max_left _ _)))
        ((le_max_right _ _).trans ((le_max_left _ _).trans (le_max_left _ _))) ((le_max_right _ _).trans (le_max_left _ _)) (le_max_right _ _)⟩

/-- The bounding box of a curve is attained. -/
theorem Cubic.bboxMin_least (c : Cubic) : IsLeast ((fun t => (c.eval t).x) '' Set.Icc 0 1) c.bboxMin :=
  (isCompact_Icc.image c.cont_x).isLeast_sInf ⟨_, 0, ⟨le_rfl, zero_le_one⟩, rfl⟩

theorem Cubic.bboxMax_greatest (c : Cubic) : IsGreatest ((fun t => (c.eval t).x) '' Set.Icc 0 1) c.bboxMax :=
  (isCompact_Icc.image c.cont_x).isGreatest_sSup ⟨_, 0, ⟨le_rfl, zero_le_one⟩, rfl⟩

/-- The part of a segment between two heights has the local box: its sides are attained. -/
theorem Seg.localBBox_spec (s : Seg) (h : s.Down) (y eps : ℝ) (he : 0 ≤ eps) (h0 : s.start.y ≤ y + eps) (h1 : y - eps ≤ s.stop.y) :
    IsLeast {x | ∃ y', |y' - y| ≤ eps ∧ s.On ⟨x, y'⟩} (s.localBBox y eps).1 ∧
    IsGreatest {x | ∃ y', |y' - y| ≤ eps ∧ s.On ⟨x, y'⟩} (s.localBBox y eps).2 := by
  have hab : ∀ y', |y' - y| ≤ eps ↔ y - eps ≤ y' ∧ y' ≤ y + eps := fun y' => by rw [abs_le]; constructor <;> rintro ⟨a, b⟩ <;> constructor <;> linarith
  obtain ⟨A, hA⟩ : ∃ A, A = max (y - eps) s.start.y := ⟨_, rfl⟩
  obtain ⟨B, hB⟩ : ∃ B, B = min (y + eps) s.stop.y := ⟨_, rfl⟩
  have hss : s.start.y < s.stop.y := by
    cases s with
    | line p0 p1 => exact h
    | cubic c => exact h.1
  have hAB : A ≤ B := by rw [hA, hB]; exact max_le (le_min (by linarith) h1) (le_min h0 hss.le)
  have a0 : s.start.y ≤ A := hA ▸ le_max_right _ _
  have a1 : y - eps ≤ A := hA ▸ le_max_left _ _
  have b0 : B ≤ s.stop.y := hB ▸ min_le_right _ _
  have b1 : B ≤ y + eps := hB ▸ min_le_left _ _
  -- the points concerned are those at heights between A and B
  have hset : {x | ∃ y', |y' - y| ≤ eps ∧ s.On ⟨x, y'⟩} = {x | ∃ y', A ≤ y' ∧ y' ≤ B ∧ x = s.atY y'} := by
    ext x
    constructor
    · rintro ⟨y', g1, g2⟩
      have g3 := s.on_y h _ g2
      rw [hab] at g1
      exact ⟨y', hA ▸ max_le g1.1 g3.1, hB ▸ le_min g1.2 g3.2, (s.on_iff h y' x g3.1 g3.2).1 g2⟩
    · rintro ⟨y', g1, g2, g3⟩
      exact ⟨y', (hab y').2 ⟨a1.trans g1, g2.trans b1⟩, (s.on_iff h y' x (a0.trans g1) (g2.trans b0)).2 g3⟩
  rw [hset]
  cases s with
  | line p0 p1 =>
    have hd : p0.y < p1.y := h
    simp only [Seg.localBBox, Seg.start, Seg.stop] at hA hB ⊢
    rw [← hA, ← hB]
    have key : ∀ y', A ≤ y' → y' ≤ B → (min ((Seg.line p0 p1).atY A) ((Seg.line p0 p1).atY B) ≤ (Seg.line p0 p1).atY y') ∧
        (Seg.line p0 p1).atY y' ≤ max ((Seg.line p0 p1).atY A) ((Seg.line p0 p1).atY B) := by
      intro y' g1 g2
      obtain ⟨k, hk⟩ : ∃ k, k = (p1.x - p0.x) / (p1.y - p0.y) := ⟨_, rfl⟩
      have hf : ∀ z, (Seg.line p0 p1).atY z = p0.x + (z - p0.y) * k := by
        intro z; rw [Seg.atY_line hd, hk]; ring
      rw [hf, hf, hf]
      by_cases hk0 : 0 ≤ k
      · have e1 := mul_le_mul_of_nonneg_right g1 hk0
        have e2 := mul_le_mul_of_nonneg_right g2 hk0
        exact ⟨(min_le_left _ _).trans (by linarith), le_trans (by linarith) (le_max_right _ _)⟩
      · have e1 := mul_le_mul_of_nonpos_right g1 (not_le.1 hk0).le
        have e2 := mul_le_mul_of_nonpos_right g2 (not_le.1 hk0).le
        exact ⟨(min_le_right _ _).trans (by linarith), le_trans (by linarith) (le_max_left _ _)⟩
    refine ⟨⟨?_, ?_⟩, ?_, ?_⟩
    · rcases min_choice ((Seg.line p0 p1).atY A) ((Seg.line p0 p1).atY B) with e | e
      · exact ⟨A, le_rfl, hAB, e⟩
      · exact ⟨B, hAB, le_rfl, e⟩
    · rintro x ⟨y', g1, g2, rfl⟩; exact (key y' g1 g2).1
    · rcases max_choice ((Seg.line p0 p1).atY A) ((Seg.line p0 p1).atY B) with e | e
      · exact ⟨A, le_rfl, hAB, e⟩
      · exact ⟨B, hAB, le_rfl, e⟩
    · rintro x ⟨y', g1, g2, rfl⟩; exact (key y' g1 g2).2
  | cubic c =>
    have hd : c.Mono := h
    simp only [Seg.localBBox, Seg.start, Seg.stop] at hA hB a0 b0 ⊢
    rw [← hA, ← hB]
    have hT := hd.solveT_le a0 hAB b0
    obtain ⟨ta0, ta1, ta⟩ := solveT_spec (c := c) a0 (hAB.trans b0)
    obtain ⟨tb0, tb1, tb⟩ := solveT_spec (c := c) (a0.trans hAB) b0
    have himg : (fun t => ((c.subsegment (solveT c A) (solveT c B)).eval t).x) '' Set.Icc 0 1 = {x | ∃ y', A ≤ y' ∧ y' ≤ B ∧ x = (Seg.cubic c).atY y'} := by
      ext x
      constructor
      · rintro ⟨u, ⟨u0, u1⟩, rfl⟩
        dsimp only
        rw [c.subsegment_eval]
        obtain ⟨w, hw⟩ : ∃ w, w = solveT c A + u * (solveT c B - solveT c A) := ⟨_, rfl⟩
        rw [← hw]
        have w1 : solveT c A ≤ w := by rw [hw]; nlinarith
        have w2 : w ≤ solveT c B := by rw [hw]; nlinarith
        refine ⟨(c.eval w).y, ?_, ?_, ?_⟩
        · have := hd.mono ta0 w1 (w2.trans tb1)
          rwa [ta] at this
        · have := hd.mono (ta0.trans w1) w2 tb1
          rwa [tb] at this
        · simp only [Seg.atY, solveX]
          rw [hd.solveT_unique (ta0.trans w1) (w2.trans tb1) rfl]
      · rintro ⟨y', g1, g2, rfl⟩
        have k1 := hd.solveT_le a0 g1 (g2.trans b0)
        have k2 := hd.solveT_le (a0.trans g1) g2 b0
        simp only [Seg.atY, solveX]
        rcases eq_or_lt_of_le hT with e | e
        · refine ⟨0, ⟨le_rfl, zero_le_one⟩, ?_⟩
          dsimp only
          rw [c.subsegment_eval, zero_mul, add_zero]
          rw [show solveT c A = solveT c y' from le_antisymm k1 (e ▸ k2)]
        · refine ⟨(solveT c y' - solveT c A) / (solveT c B - solveT c A), ⟨?_, ?_⟩, ?_⟩
          · exact div_nonneg (by linarith) (by linarith)
          · rw [div_le_one (by linarith)]; linarith
          · have hne : solveT c B - solveT c A ≠ 0 := by linarith
            dsimp only
            rw [c.subsegment_eval, div_mul_cancel₀ _ hne, add_sub_cancel]
    rw [← himg]
    exact ⟨Cubic.bboxMin_least _, Cubic.bboxMax_greatest _⟩

theorem Seg.lower_least (s : Seg) (h : s.Down) (y eps : ℝ) (he : 0 ≤ eps) (h0 : s.start.y ≤ y + eps) (h1 : y - eps ≤ s.stop.y) :
    IsLeast (s.Near y eps) (s.lower y eps) ∧ IsGreatest (s.Near y eps) (s.upper y eps) := by
  obtain ⟨⟨⟨y1, a1, a2⟩, a3⟩, ⟨⟨y2, b1, b2⟩, b3⟩⟩ := s.localBBox_spec h y eps he h0 h1
  refine ⟨⟨⟨_, a2, a1, ?_⟩, ?_⟩, ⟨_, b2, b1, ?_⟩, ?_⟩
  · simp only [Seg.lower]; rw [show (s.localBBox y eps).1 - eps - (s.localBBox y eps).1 = -eps by ring, abs_neg, abs_of_nonneg he]
  · rintro x ⟨p, g1, g2, g3⟩
    have := a3 ⟨p.y, g2, g1⟩
    rw [abs_le] at g3
    simp only [Seg.lower]
    linarith [g3.1]
  · simp only [Seg.upper]; rw [show (s.localBBox y eps).2 + eps - (s.localBBox y eps).2 = eps by ring, abs_of_nonneg he]
  · rintro x ⟨p, g1, g2, g3⟩
    have := b3 ⟨p.y, g2, g1⟩
    rw [abs_le] at g3
    simp only [Seg.upper]
    linarith [g3.2]

end Verif.Geom
