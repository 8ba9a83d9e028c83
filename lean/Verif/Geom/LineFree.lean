import Verif.Geom.Straight

/-!
# Comparing straight lines

The comparison of two straight lines does not depend on the root finder: the equations that it is given are zero.
-/

namespace Verif.Geom
open Verif.Curve

/-- The estimate does not depend on the root finder. -/
def Free (c : Cubic) : Prop := ∀ s s' : ℝ → ℝ → ℝ → ℝ → List ℝ, fromCubic s c = fromCubic s' c

/-- The control points are on the line through the ends. -/
def Cubic.Lined (c : Cubic) : Prop := ∃ k1 k2 : ℝ, c.p1 = c.p0.affine c.p3 k1 ∧ c.p2 = c.p0.affine c.p3 k2

theorem Cubic.Lined.straight {c : Cubic} (h : c.Lined) (hne : c.p0.y ≠ c.p3.y) : ∃ a b, c.Straight a b := by
  obtain ⟨k1, k2, h1, h2⟩ := h
  have hd : c.p3.y - c.p0.y ≠ 0 := sub_ne_zero.2 hne.symm
  refine ⟨c.p0.x - (c.p3.x - c.p0.x) / (c.p3.y - c.p0.y) * c.p0.y, (c.p3.x - c.p0.x) / (c.p3.y - c.p0.y), ?_, ?_, ?_, ?_⟩
  · ring
  · rw [h1]; simp only [Pt.affine]; field_simp; ring
  · rw [h2]; simp only [Pt.affine]; field_simp; ring
  · field_simp; ring

theorem Cubic.Straight.lined {c : Cubic} {a b : ℝ} (h : c.Straight a b) (hne : c.p0.y ≠ c.p3.y) : c.Lined := by
  obtain ⟨h0, h1, h2, h3⟩ := h
  have hd : c.p3.y - c.p0.y ≠ 0 := sub_ne_zero.2 hne.symm
  refine ⟨(c.p1.y - c.p0.y) / (c.p3.y - c.p0.y), (c.p2.y - c.p0.y) / (c.p3.y - c.p0.y), ?_, ?_⟩
  · ext <;> simp only [Pt.affine, h0, h1, h3] <;> field_simp <;> ring
  · ext <;> simp only [Pt.affine, h0, h2, h3] <;> field_simp <;> ring

theorem Cubic.Lined.rot {c : Cubic} (h : c.Lined) (s : ℝ) (z : Pt) : (rotC s z c).Lined := by
  obtain ⟨k1, k2, h1, h2⟩ := h
  refine ⟨k1, k2, ?_, ?_⟩
  · ext <;> simp only [rotC, rotPt, Pt.affine, h1] <;> ring
  · ext <;> simp only [rotC, rotPt, Pt.affine, h2] <;> ring

/-- All control points are equal. -/
def Cubic.Single (c : Cubic) : Prop := c.p1 = c.p0 ∧ c.p2 = c.p0 ∧ c.p3 = c.p0

theorem Cubic.Single.free {c : Cubic} (h : c.Single) : Free c := by
  obtain ⟨h1, h2, h3⟩ := h
  have key : ∀ c0 c1 c2 : ℝ, c0 = c.p0.x - c1 * c.p0.y - c2 * c.p0.y ^ 2 → ∀ q, q = hybrid0 c ∨ q = hybrid1 c → ∀ l : List ℝ,
      l.foldl (widen c0 c1 c2 q) (0, 0) = (0, 0) := by
    intro c0 c1 c2 hc q hq l
    have hw : ∀ t, widen c0 c1 c2 q (0, 0) t = (0, 0) := by
      intro t
      have hx : (q.eval t).x - (c0 + c1 * (q.eval t).y + c2 * (q.eval t).y ^ 2) = 0 := by
        rcases hq with rfl | rfl <;> rw [hc] <;> simp only [hybrid0, hybrid1, Quad.eval, bez2, Pt.lerp, h1, h2, h3] <;> ring
      unfold widen
      split
      · simp only [hx, min_self, max_self]
      · rfl
    induction l with
    | nil => rfl
    | cons a l ih => rw [List.foldl_cons, hw, ih]
  intro s s'
  simp only [fromCubic, List.foldl_cons, List.foldl_nil]
  rw [key _ _ _ rfl _ (.inl rfl), key _ _ _ rfl _ (.inr rfl), key _ _ _ rfl _ (.inl rfl), key _ _ _ rfl _ (.inr rfl)]

theorem Cubic.Straight.free {c : Cubic} {a b : ℝ} (h : c.Straight a b) (hne : c.p0.y ≠ c.p3.y) : Free c := fun s s' => by
  rw [fromCubic_straight s h hne, fromCubic_straight s' h hne]

/-- The height is between those of the ends. -/
def Cubic.Covers (c : Cubic) (y : ℝ) : Prop := c.p0.y ≤ y ∧ y ≤ c.p3.y

/-- The part of a straight line between two heights, in any order. -/
theorem Cubic.Straight.part {c : Cubic} {a b : ℝ} (h : c.Straight a b) {y0 y1 : ℝ} (h0 : c.Covers y0) (h1 : c.Covers y1) : (ySubsegment c y0 y1).Straight a b := by
  have e0 := eval_solveT (c := c) (y := y0) h0.1 h0.2
  have e1 := eval_solveT (c := c) (y := y1) h1.1 h1.2
  have d0 := h.deriv (solveT c y0)
  have d1 := h.deriv (solveT c y1)
  have x0 := h.solveX h0.1 h0.2
  have x1 := h.solveX h1.1 h1.2
  refine ⟨by rw [sub_p0]; exact x0, ?_, ?_, by rw [sub_p3]; exact x1⟩
  · simp only [ySubsegment, Cubic.subsegment, e0, d0, x0]; ring
  · simp only [ySubsegment, Cubic.subsegment, e1, d1, x1]; ring

theorem single_part {c : Cubic} {y : ℝ} (h : c.Covers y) : (ySubsegment c y y).Single := by
  have e := eval_solveT (c := c) (y := y) h.1 h.2
  refine ⟨?_, ?_, rfl⟩
  · simp only [ySubsegment, Cubic.subsegment]
    ext
    · simp
    · simp [e]
  · simp only [ySubsegment, Cubic.subsegment]
    ext
    · simp
    · simp [e]

/-- A line that can be compared. -/
structure Cubic.Plain (c : Cubic) : Prop where
  lined : c.Lined
  descends : c.p0.y < c.p3.y

theorem Cubic.Plain.part_free {c : Cubic} (h : c.Plain) {y0 y1 : ℝ} (h0 : c.Covers y0) (h1 : c.Covers y1) {mid k : ℝ} (hk : k ≠ 0) :
    Free (rescaleC mid k (ySubsegment c y0 y1)) := by
  obtain ⟨a, b, hs⟩ := h.lined.straight h.descends.ne
  by_cases e : y0 = y1
  · subst e
    obtain ⟨k1, k2, k3⟩ := single_part h0
    refine Cubic.Single.free ⟨?_, ?_, ?_⟩
    · simp only [rescaleC, k1]
    · simp only [rescaleC, k2]
    · simp only [rescaleC, k3]
  · refine ((hs.part h0 h1).rescale mid hk).free ?_
    simp only [rescaleC, sub_p0, sub_p3]
    intro h
    apply e
    have := mul_right_cancel₀ hk h
    linarith

theorem Cubic.Plain.part_lined {c : Cubic} (h : c.Plain) {y0 y1 : ℝ} (h0 : c.Covers y0) (h1 : c.Covers y1) : (ySubsegment c y0 y1).Lined := by
  obtain ⟨a, b, hs⟩ := h.lined.straight h.descends.ne
  by_cases e : y0 = y1
  · subst e
    obtain ⟨k1, k2, k3⟩ := single_part h0
    refine ⟨0, 0, ?_, ?_⟩
    · rw [k1]; ext <;> simp [Pt.affine]
    · rw [k2]; ext <;> simp [Pt.affine]
  · refine (hs.part h0 h1).lined ?_
    rw [sub_p0, sub_p3]; exact e

theorem diffEst_free {c0 c1 : Cubic} (p0 : c0.Plain) (p1 : c1.Plain) {y0 y1 : ℝ} (h00 : c0.Covers y0) (h01 : c0.Covers y1) (h10 : c1.Covers y0) (h11 : c1.Covers y1)
    (s s' : ℝ → ℝ → ℝ → ℝ → List ℝ) : diffEst s (ySubsegment c0 y0 y1) (ySubsegment c1 y0 y1) y0 y1 = diffEst s' (ySubsegment c0 y0 y1) (ySubsegment c1 y0 y1) y0 y1 := by
  have hk : (1 / max (y1 - y0) 1 : ℝ) ≠ 0 := one_div_ne_zero (ne_of_gt (lt_of_lt_of_le one_pos (le_max_right _ _)))
  unfold diffEst
  simp only
  rw [p0.part_free h00 h01 hk s s', p1.part_free h10 h11 hk s s']

/-! ## The pieces -/

theorem pieces_within {lo hi : ℝ} (l : List (Entry ℝ)) : ∀ y : ℝ, (lo ≤ y ∧ y ≤ hi) → (∀ e ∈ l, lo ≤ e.stop ∧ e.stop ≤ hi) → ∀ p ∈ pieces y l,
    (lo ≤ p.lo ∧ p.lo ≤ hi) ∧ lo ≤ p.hi ∧ p.hi ≤ hi := by
  induction l with
  | nil => intro y _ _ p hp; simp [pieces] at hp
  | cons e l ih =>
    intro y hy h p hp
    rw [pieces, List.mem_cons] at hp
    rcases hp with rfl | hp
    · exact ⟨hy, h e List.mem_cons_self⟩
    · exact ih e.stop (h e List.mem_cons_self) (fun e' he' => h e' (List.mem_cons_of_mem _ he')) p hp

theorem unscale_within {lo hi mid uns y0 y1 : ℝ} (h0 : lo ≤ y0 ∧ y0 ≤ hi) (h1 : lo ≤ y1 ∧ y1 ≤ hi) {c d : CurveOrder ℝ} (h : unscale mid uns y0 y1 c = some d) :
    ∀ p ∈ d.iter, (lo ≤ p.lo ∧ p.lo ≤ hi) ∧ lo ≤ p.hi ∧ p.hi ≤ hi := by
  unfold unscale setLast at h
  simp only at h
  have hm : ∀ e ∈ c.cmps.map fun e => (⟨min (max (e.stop * uns + mid) y0) y1, e.order⟩ : Entry ℝ), lo ≤ e.stop ∧ e.stop ≤ hi := by
    intro e he
    obtain ⟨e', -, rfl⟩ := List.mem_map.1 he
    exact ⟨le_min (h0.1.trans (le_max_right _ _)) h1.1, (min_le_right _ _).trans h1.2⟩
  split at h
  · exact absurd h (by simp)
  · obtain rfl := Option.some.inj h
    refine pieces_within _ _ h0 fun e he => ?_
    rcases List.mem_append.1 he with he | he
    · exact hm e (List.dropLast_subset _ he)
    · rw [List.mem_singleton] at he
      subst he
      exact h1

theorem allPieces_congr {go go' : ℝ → ℝ → CurveOrder ℝ → Option (CurveOrder ℝ)} {lo hi : ℝ}
    (hgo : ∀ a b out, (lo ≤ a ∧ a ≤ hi) → (lo ≤ b ∧ b ≤ hi) → go a b out = go' a b out) (acc y0 y1 spread : ℝ) (l : List (Piece ℝ)) : ∀ out,
    (∀ p ∈ l, (lo ≤ p.lo ∧ p.lo ≤ hi) ∧ lo ≤ p.hi ∧ p.hi ≤ hi) → allPieces go acc y0 y1 spread out l = allPieces go' acc y0 y1 spread out l := by
  induction l with
  | nil => intro out _; rfl
  | cons p l ih =>
    intro out h
    obtain ⟨a, b⟩ := h p List.mem_cons_self
    have hmid : lo ≤ 1 / 2 * (p.lo + p.hi) ∧ 1 / 2 * (p.lo + p.hi) ≤ hi := by constructor <;> linarith [a.1, a.2, b.1, b.2]
    have hone : onePiece go acc y0 y1 spread out p = onePiece go' acc y0 y1 spread out p := by
      unfold onePiece
      simp only
      have e1 : go p.lo p.hi out = go' p.lo p.hi out := hgo _ _ _ a b
      have e2 : (go p.lo (1 / 2 * (p.lo + p.hi)) out).bind (go (1 / 2 * (p.lo + p.hi)) p.hi) =
          (go' p.lo (1 / 2 * (p.lo + p.hi)) out).bind (go' (1 / 2 * (p.lo + p.hi)) p.hi) := by
        rw [hgo _ _ _ a hmid]
        congr 1
        funext o
        exact hgo _ _ _ hmid b
      rw [e1, e2]
    rw [allPieces, allPieces, hone]
    congr 1
    funext o
    exact ih o fun q hq => h q (List.mem_cons_of_mem _ hq)

theorem withRotation_congr {go go' : Cubic → Cubic → ℝ → ℝ → CurveOrder ℝ → Option (CurveOrder ℝ)} {c0 c1 : Cubic} (l0 : c0.Lined) (l1 : c1.Lined)
    (hgo : ∀ r0 r1 z0 z1 out, r0.Plain → r1.Plain → r0.Covers z0 → r0.Covers z1 → r1.Covers z0 → r1.Covers z1 → go r0 r1 z0 z1 out = go' r0 r1 z0 z1 out)
    (tol y0 y1 : ℝ) (out : CurveOrder ℝ) : withRotation go tol c0 c1 y0 y1 out = withRotation go' tol c0 c1 y0 y1 out := by
  have hrot : ∀ s z, rotated go tol c0 c1 y0 y1 out s z = rotated go' tol c0 c1 y0 y1 out s z := by
    intro s z
    unfold rotated
    simp only
    by_cases m0 : ¬ (rotC s z c0).CtrlMono
    · rw [if_pos m0, if_pos m0]
    by_cases m1 : ¬ (rotC s z c1).CtrlMono
    · rw [if_neg m0, if_pos m1, if_neg m0, if_pos m1]
    rw [if_neg m0, if_neg m1, if_neg m0, if_neg m1]
    by_cases hz : min (rotC s z c0).p3.y (rotC s z c1).p3.y ≤ max (rotC s z c0).p0.y (rotC s z c1).p0.y
    · rw [if_pos hz, if_pos hz]
    rw [if_neg hz, if_neg hz]
    have hlt := not_le.1 hz
    have a0 : (rotC s z c0).p0.y ≤ max (rotC s z c0).p0.y (rotC s z c1).p0.y := le_max_left _ _
    have a1 : (rotC s z c1).p0.y ≤ max (rotC s z c0).p0.y (rotC s z c1).p0.y := le_max_right _ _
    have b0 : min (rotC s z c0).p3.y (rotC s z c1).p3.y ≤ (rotC s z c0).p3.y := min_le_left _ _
    have b1 : min (rotC s z c0).p3.y (rotC s z c1).p3.y ≤ (rotC s z c1).p3.y := min_le_right _ _
    rw [hgo _ _ _ _ _ ⟨l0.rot s z, by linarith⟩ ⟨l1.rot s z, by linarith⟩ ⟨a0, by linarith⟩ ⟨by linarith, b0⟩ ⟨a1, by linarith⟩ ⟨by linarith, b1⟩]
  unfold withRotation
  simp only [hrot]

/-- The comparison of two lines does not depend on the root finder. -/
theorem intersectRec_free (s s' : ℝ → ℝ → ℝ → ℝ → List ℝ) (tol acc : ℝ) (n : ℕ) : ∀ (o0 o1 : Cubic) (y0 y1 : ℝ) (out : CurveOrder ℝ), o0.Plain → o1.Plain →
    o0.Covers y0 → o0.Covers y1 → o1.Covers y0 → o1.Covers y1 → intersectRec s tol acc n o0 o1 y0 y1 out = intersectRec s' tol acc n o0 o1 y0 y1 out := by
  induction n with
  | zero => intros; rfl
  | succ n ih =>
    intro o0 o1 y0 y1 out p0 p1 h00 h01 h10 h11
    rw [intersectRec, intersectRec]
    have hrot := withRotation_congr (go := intersectRec s tol acc n) (go' := intersectRec s' tol acc n) (p0.part_lined h00 h01) (p1.part_lined h10 h11)
      (fun r0 r1 z0 z1 out q0 q1 a b c d => ih r0 r1 z0 z1 out q0 q1 a b c d) tol y0 y1 out
    have hall : ∀ (sc : CurveOrder ℝ) (sc' : CurveOrder ℝ) (spread : ℝ), unscale ((y0 + y1) / 2) (max (y1 - y0) 1) y0 y1 sc = some sc' →
        allPieces (intersectRec s tol acc n o0 o1) acc y0 y1 spread out sc'.iter = allPieces (intersectRec s' tol acc n o0 o1) acc y0 y1 spread out sc'.iter := by
      intro sc sc' spread hsc
      refine allPieces_congr (lo := max o0.p0.y o1.p0.y) (hi := min o0.p3.y o1.p3.y) (fun a b out ha hb => ?_) acc y0 y1 spread _ _
        (unscale_within ⟨max_le h00.1 h10.1, le_min h00.2 h10.2⟩ ⟨max_le h01.1 h11.1, le_min h01.2 h11.2⟩ hsc)
      exact ih o0 o1 a b out p0 p1 ⟨(le_max_left _ _).trans ha.1, ha.2.trans (min_le_left _ _)⟩ ⟨(le_max_left _ _).trans hb.1, hb.2.trans (min_le_left _ _)⟩
        ⟨(le_max_right _ _).trans ha.1, ha.2.trans (min_le_right _ _)⟩ ⟨(le_max_right _ _).trans hb.1, hb.2.trans (min_le_right _ _)⟩
    simp only
    rw [hrot, diffEst_free p0 p1 h00 h01 h10 h11 s s']
    by_cases e1 : maxDistance (ySubsegment o0 y0 y1) (ySubsegment o1 y0 y1) ≤ tol
    · rw [if_pos e1, if_pos e1]
    rw [if_neg e1, if_neg e1]
    by_cases e2 : y1 - y0 < acc
    · rw [if_pos e2, if_pos e2]
    rw [if_neg e2, if_neg e2]
    cases withRotation (intersectRec s' tol acc n) tol (ySubsegment o0 y0 y1) (ySubsegment o1 y0 y1) y0 y1 out with
    | some r => rfl
    | none =>
      simp only
      generalize pushQuadraticSigns _ _ _ _ _ _ _ _ = sc
      cases sc with
      | none => rfl
      | some sc =>
        simp only
        cases hsc : unscale ((y0 + y1) / 2) (max (y1 - y0) 1) y0 y1 sc with
        | none => rfl
        | some sc' => exact hall sc sc' _ hsc

theorem lined_line (p q : Pt) : (Seg.toCubic (.line p q)).Lined := by
  refine ⟨1 / 3, 2 / 3, ?_, ?_⟩
  · ext <;> simp only [Seg.toCubic, Pt.affine] <;> ring
  · ext <;> simp only [Seg.toCubic, Pt.affine] <;> ring

theorem intersectCubics_free (s s' : ℝ → ℝ → ℝ → ℝ → List ℝ) (tol acc : ℝ) (n : ℕ) {c0 c1 : Cubic} (l0 : c0.Lined) (l1 : c1.Lined) :
    intersectCubics s tol acc n c0 c1 = intersectCubics s' tol acc n c0 c1 := by
  unfold intersectCubics
  simp only
  by_cases h : max c0.p0.y c1.p0.y < min c0.p3.y c1.p3.y
  · rw [if_pos h, if_pos h]
    have a0 : c0.p0.y ≤ max c0.p0.y c1.p0.y := le_max_left _ _
    have a1 : c1.p0.y ≤ max c0.p0.y c1.p0.y := le_max_right _ _
    have b0 : min c0.p3.y c1.p3.y ≤ c0.p3.y := min_le_left _ _
    have b1 : min c0.p3.y c1.p3.y ≤ c1.p3.y := min_le_right _ _
    exact intersectRec_free s s' tol acc n c0 c1 _ _ _ ⟨l0, by linarith⟩ ⟨l1, by linarith⟩ ⟨a0, by linarith⟩ ⟨by linarith, b0⟩ ⟨a1, by linarith⟩ ⟨by linarith, b1⟩
  · rw [if_neg h, if_neg h]

end Verif.Geom
