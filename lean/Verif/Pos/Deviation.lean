import Verif.Pos.Groups
import Verif.Pos.Accuracy
import Verif.Pos.Weight
import Verif.Geom.Rough
import Verif.Geom.Straight

/-!
# How far the finished paths are from the input (C88)

The steps of the layout (C73) put together: a bound for the horizontal distance of every point of every finished path from the input segment that it comes from.
-/

namespace Verif.Pos
open Verif.Curve Verif.Geom Verif.Scan

/-- The position of the input segment of `o` at the height `y`. -/
noncomputable def Input.x (I : Input) (o : Nat) (y : ℝ) : ℝ := solveX (I.seg o).toCubic y

/-- What the bound depends on. `δ`: the ends of the output segments are horizontally at most `δ` away from their input segments. `W`: the input segments of a
group are at most `W` apart, as long as the group lasts. `H`: a group with curves is at most `H` high. `σ`: curves do not move to the side by more than
`σ` times the height. -/
structure Within (I : Input) (δ W H σ : ℝ) : Prop where
  roots : FindsRoots I.solve
  delta : 0 ≤ δ
  width : 0 ≤ W
  high : 0 ≤ H
  sigma : 0 ≤ σ ∧ σ ≤ 1
  mono : ∀ o < I.n, (I.first o).y < (I.second o).y → (I.seg o).toCubic.Mono ∧ (I.seg o).toCubic.Spans (I.first o).y (I.second o).y
  steep : ∀ o < I.n, (I.first o).y < (I.second o).y → isLine (I.seg o) = true ∨ (I.seg o).toCubic.Steep σ
  first : ∀ o < I.n, (I.first o).y < (I.second o).y → |(I.first o).x - I.x o (I.first o).y| ≤ δ
  second : ∀ o < I.n, (I.first o).y < (I.second o).y → |(I.second o).x - I.x o (I.second o).y| ≤ δ
  group : ∀ y0 y1 nbrs, Group I y0 y1 nbrs → ∀ a ∈ nbrs, ∀ b ∈ nbrs, ∀ y, y0 ≤ y → y ≤ y1 → |I.x a y - I.x b y| ≤ W
  short : ∀ y0 y1 nbrs, Group I y0 y1 nbrs → (∀ o, nbrs ≠ [o]) → (∃ o ∈ nbrs, isLine (I.seg o) = false) → y1 ≤ y0 + H

/-- The error of the middle control points, and how far a curve bends away from a straight line. -/
noncomputable def bendOf (I : Input) (H σ : ℝ) : ℝ := (4 + 20 * σ) * I.accuracy + σ * H

/-! ## One segment -/

theorem straight_of_line {g : Seg} (h : isLine g = true) (hm : g.toCubic.Mono) : ∃ a b, g.toCubic.Straight a b := by
  obtain ⟨p, q, rfl⟩ := (isLine_iff g).1 h
  have hd : p.y < q.y := hm.1
  have hne : q.y - p.y ≠ 0 := by linarith
  refine ⟨p.x - (q.x - p.x) / (q.y - p.y) * p.y, (q.x - p.x) / (q.y - p.y), ?_⟩
  unfold Cubic.Straight
  simp only [Seg.toCubic]
  refine ⟨?_, ?_, ?_, ?_⟩ <;> field_simp <;> ring

/-- The weight of a curve that is not flat. -/
theorem errorWeight_steep {c : Cubic} {σ : ℝ} (h : c.Steep σ) (hσ : σ ≤ 1) (hlt : c.p0.y < c.p3.y) : 1 / 2 ≤ errorWeight c := by
  obtain ⟨w0, -, hw⟩ := weight_tangents c
  have key : ∀ v : Pt, (v = tan0 c ∨ v = tan1 c ∨ v = tan2 c) → |v.x| ≤ σ * v.y → 0 < v.y → 1 / 2 ≤ errorWeight c := by
    intro v hv hx hy
    have h1 := hw v hv
    have h2 : |v.x| ≤ v.y := hx.trans (by nlinarith)
    have h3 : Real.sqrt (hypot2 v) ≤ 2 * v.y := by
      rw [show 2 * v.y = Real.sqrt ((2 * v.y) ^ 2) from (Real.sqrt_sq (by linarith)).symm]
      refine Real.sqrt_le_sqrt ?_
      unfold hypot2
      have := abs_le.1 h2
      nlinarith
    rw [abs_of_pos hy] at h1
    have := mul_le_mul_of_nonneg_left h3 w0
    nlinarith
  obtain ⟨h0, h1, h2⟩ := h
  by_cases c0 : 0 < c.p1.y - c.p0.y
  · exact key (tan0 c) (.inl rfl) h0 c0
  by_cases c1 : 0 < c.p2.y - c.p1.y
  · exact key (tan1 c) (.inr (.inl rfl)) h1 c1
  · exact key (tan2 c) (.inr (.inr rfl)) h2 (by simp only [tan2]; linarith)

/-- The error of an accepted parabola. -/
theorem parabError_steep {solve : ℝ → ℝ → ℝ → ℝ → List ℝ} (hs : FindsRoots solve) {c : Cubic} (h : c.Mono) {acc σ u v : ℝ} (hacc : 0 < acc) (h0 : 0 ≤ σ) (hσ : σ ≤ 1)
    (hst : c.Steep σ) (sp : c.Spans u v) (hlt : u < v) (hf : Fits solve acc u v c) : parabError solve c u v ≤ (2 + 10 * σ) * acc := by
  have hm : (recentred c u v).Mono := by rw [recentred_eq]; exact rescale_mono (ysub_mono h sp hlt) _ one_pos
  have hst' : (recentred c u v).Steep σ := by
    have := hst.ysub h sp
    obtain ⟨a, b, d⟩ := this
    refine ⟨?_, ?_, ?_⟩ <;> simp only [recentred, sub_sub_sub_cancel_right] <;> assumption
  obtain ⟨b1, b2, -⟩ := fromCubic_bounds solve hs (recentred c u v) hm.1.ne
  rcases hf with hf | hf
  · have hX : (recentred c u v).Extent (σ * (v - u)) := by
      have := hst.extent_sub h sp
      exact this
    have := spread_extent solve hs hm hX
    have e : σ * (v - u) ≤ σ * acc := mul_le_mul_of_nonneg_left (by linarith) h0
    unfold parabError
    have : (fromCubic solve (recentred c u v)).dmax - (fromCubic solve (recentred c u v)).dmin ≤ 10 * (σ * acc) := by linarith
    refine max_le ?_ ?_ <;> nlinarith
  · have hw := errorWeight_steep hst' hσ hm.1
    have hn : 0 ≤ parabError solve c u v := (abs_nonneg _).trans (parab_near hs h sp hlt le_rfl hlt.le)
    have : parabError solve c u v * errorWeight (recentred c u v) < acc := hf
    have h2 : parabError solve c u v * (1 / 2) ≤ parabError solve c u v * errorWeight (recentred c u v) := mul_le_mul_of_nonneg_left hw hn
    nlinarith

/-- Convex combinations. -/
theorem bez2_abs {a b c t κ : ℝ} (t0 : 0 ≤ t) (t1 : t ≤ 1) (ha : |a| ≤ κ) (hb : |b| ≤ κ) (hc : |c| ≤ κ) : |bez2 a b c t| ≤ κ := by
  have e : ∀ k, bez2 k k k t = k := fun k => by unfold bez2; ring
  rw [abs_le] at *
  constructor
  · have := bez2_mono t0 t1 ha.1 hb.1 hc.1
    rwa [e] at this
  · have := bez2_mono t0 t1 ha.2 hb.2 hc.2
    rwa [e] at this

theorem bez2_between {a b c t lo hi : ℝ} (t0 : 0 ≤ t) (t1 : t ≤ 1) (ha : lo ≤ a ∧ a ≤ hi) (hb : lo ≤ b ∧ b ≤ hi) (hc : lo ≤ c ∧ c ≤ hi) : lo ≤ bez2 a b c t ∧ bez2 a b c t ≤ hi := by
  have e : ∀ k, bez2 k k k t = k := fun k => by unfold bez2; ring
  constructor
  · have := bez2_mono t0 t1 ha.1 hb.1 hc.1
    rwa [e] at this
  · have := bez2_mono t0 t1 ha.2 hb.2 hc.2
    rwa [e] at this

/-- Of a quadratic whose control points are near a function that does not bend much, all points are near it. -/
theorem quad_near {f : ℝ → ℝ} {lo hi κ ω : ℝ} (hb : ∀ a b c t, lo ≤ a → a ≤ hi → lo ≤ b → b ≤ hi → lo ≤ c → c ≤ hi → 0 ≤ t → t ≤ 1 →
    |bez2 (f a) (f b) (f c) t - f (bez2 a b c t)| ≤ ω) {p q r : Pt} (hp : lo ≤ p.y ∧ p.y ≤ hi) (hq : lo ≤ q.y ∧ q.y ≤ hi) (hr : lo ≤ r.y ∧ r.y ≤ hi)
    (kp : |p.x - f p.y| ≤ κ) (kq : |q.x - f q.y| ≤ κ) (kr : |r.x - f r.y| ≤ κ) {t : ℝ} (t0 : 0 ≤ t) (t1 : t ≤ 1) :
    (lo ≤ ((Quad.mk p q r).eval t).y ∧ ((Quad.mk p q r).eval t).y ≤ hi) ∧ |((Quad.mk p q r).eval t).x - f ((Quad.mk p q r).eval t).y| ≤ κ + ω := by
  refine ⟨bez2_between t0 t1 hp hq hr, ?_⟩
  have h1 := hb p.y q.y r.y t hp.1 hp.2 hq.1 hq.2 hr.1 hr.2 t0 t1
  have h2 := bez2_abs t0 t1 kp kq kr
  have e : bez2 (p.x - f p.y) (q.x - f q.y) (r.x - f r.y) t = bez2 p.x q.x r.x t - bez2 (f p.y) (f q.y) (f r.y) t := by unfold bez2; ring
  rw [e] at h2
  have := (abs_add_le _ _).trans (add_le_add h2 h1)
  rw [sub_add_sub_cancel] at this
  exact this

theorem straight_bend {c : Cubic} {a b : ℝ} (h : c.Straight a b) {y0 y1 y2 t : ℝ} (h0 : c.p0.y ≤ y0 ∧ y0 ≤ c.p3.y) (h1 : c.p0.y ≤ y1 ∧ y1 ≤ c.p3.y)
    (h2 : c.p0.y ≤ y2 ∧ y2 ≤ c.p3.y) (t0 : 0 ≤ t) (t1 : t ≤ 1) : bez2 (solveX c y0) (solveX c y1) (solveX c y2) t = solveX c (bez2 y0 y1 y2 t) := by
  have hb := bez2_between t0 t1 h0 h1 h2
  rw [h.solveX h0.1 h0.2, h.solveX h1.1 h1.2, h.solveX h2.1 h2.2, h.solveX hb.1 hb.2]
  unfold bez2; ring

theorem steep_lip {c : Cubic} (hm : c.Mono) {σ u v : ℝ} (hσ : 0 ≤ σ) (h : c.Steep σ) (hu : c.p0.y ≤ u ∧ u ≤ c.p3.y) (hv : c.p0.y ≤ v ∧ v ≤ c.p3.y) :
    |solveX c u - solveX c v| ≤ σ * |u - v| := by
  rcases le_total u v with huv | huv
  · rw [abs_sub_comm, abs_sub_comm u v, abs_of_nonneg (by linarith : 0 ≤ v - u)]
    exact (h.extent_sub hm ⟨hu.1, huv, hv.2⟩).2.2
  · rw [abs_of_nonneg (by linarith : 0 ≤ u - v)]
    exact (h.extent_sub hm ⟨hv.1, huv, hu.2⟩).2.2

theorem steep_bend {c : Cubic} (hm : c.Mono) {σ lo hi : ℝ} (hσ : 0 ≤ σ) (h : c.Steep σ) (hl : c.p0.y ≤ lo) (hh : hi ≤ c.p3.y) {y0 y1 y2 t : ℝ} (h0 : lo ≤ y0 ∧ y0 ≤ hi)
    (h1 : lo ≤ y1 ∧ y1 ≤ hi) (h2 : lo ≤ y2 ∧ y2 ≤ hi) (t0 : 0 ≤ t) (t1 : t ≤ 1) :
    |bez2 (solveX c y0) (solveX c y1) (solveX c y2) t - solveX c (bez2 y0 y1 y2 t)| ≤ σ * (hi - lo) := by
  have hb := bez2_between t0 t1 h0 h1 h2
  have lip : ∀ y, lo ≤ y → y ≤ hi → |solveX c y - solveX c (bez2 y0 y1 y2 t)| ≤ σ * (hi - lo) := by
    intro y k0 k1
    refine (steep_lip hm hσ h ⟨hl.trans k0, k1.trans hh⟩ ⟨hl.trans hb.1, hb.2.trans hh⟩).trans (mul_le_mul_of_nonneg_left ?_ hσ)
    rw [abs_le]
    constructor <;> linarith [hb.1, hb.2]
  have := bez2_abs t0 t1 (lip y0 h0.1 h0.2) (lip y1 h1.1 h1.2) (lip y2 h2.1 h2.2)
  refine le_of_eq_of_le ?_ this
  congr 1
  unfold bez2; ring

/-! ## One strip -/

section
variable {I : Input} {δ W H σ : ℝ}

theorem bendOf_nonneg (hI : Within I δ W H σ) (hacc : 0 < I.accuracy) : 0 ≤ bendOf I H σ := by
  have h1 := hI.sigma.1
  have h2 := hI.high
  unfold bendOf
  positivity

theorem fromCubic_line (solve : ℝ → ℝ → ℝ → ℝ → List ℝ) {c : Cubic} {a b u v : ℝ} (h : c.Straight a b) (sp : c.Spans u v) (hlt : u < v) :
    midOf (fromCubic solve (recentred c u v)) u v = solveX c ((u + v) / 2) := by
  have hr : (recentred c u v).Straight (a + b * ((u + v) / 2)) (b / 1) := by
    rw [recentred_eq]; exact (h.sub sp).rescale _ one_ne_zero
  rw [fromCubic_straight solve hr (by simp only [recentred, sub_p0, sub_p3]; linarith), h.solveX (by linarith [sp.1]) (by linarith [sp.2.2])]
  simp [midOf]

/-- The middle control point of an accepted parabola is near the curve. -/
theorem mid_near (hI : Within I δ W H σ) (hacc : 0 < I.accuracy) {o : Nat} (ho : o < I.n) (hlt : (I.first o).y < (I.second o).y) {u v : ℝ} (huv : u < v)
    (h0 : (I.first o).y ≤ u) (h1 : v ≤ (I.second o).y) (hH : v ≤ u + H) (hf : Fits I.solve I.accuracy u v (I.seg o).toCubic) :
    |midOf (fromCubic I.solve (recentred (I.seg o).toCubic u v)) u v - I.x o ((u + v) / 2)| ≤ bendOf I H σ := by
  obtain ⟨hm, hsp⟩ := hI.mono o ho hlt
  have sp := hsp.sub h0 huv.le h1
  rcases hI.steep o ho hlt with hl | hst
  · obtain ⟨a, b, hs⟩ := straight_of_line hl hm
    rw [fromCubic_line _ hs sp huv, Input.x, sub_self, abs_zero]
    exact bendOf_nonneg hI hacc
  · have he := parabError_steep hI.roots hm hacc hI.sigma.1 hI.sigma.2 hst sp huv hf
    have hn := abs_le.1 ((parab_near hI.roots hm sp huv (y := (u + v) / 2) (by linarith) (by linarith)).trans he)
    obtain ⟨b1, b2⟩ := parab_ends I.solve (I.seg o).toCubic huv
    have l1 := abs_le.1 (steep_lip hm hI.sigma.1 hst (u := (u + v) / 2) (v := u) ⟨by linarith [sp.1], by linarith [sp.2.2]⟩ ⟨sp.1, huv.le.trans sp.2.2⟩)
    have l2 := abs_le.1 (steep_lip hm hI.sigma.1 hst (u := (u + v) / 2) (v := v) ⟨by linarith [sp.1], by linarith [sp.2.2]⟩ ⟨sp.1.trans huv.le, sp.2.2⟩)
    have hh : σ * ((v - u) / 2) ≤ σ * H := mul_le_mul_of_nonneg_left (by linarith) hI.sigma.1
    rw [show (u + v) / 2 - u = (v - u) / 2 by ring, abs_of_nonneg (by linarith)] at l1
    rw [show (u + v) / 2 - v = -((v - u) / 2) by ring, abs_neg, abs_of_nonneg (by linarith)] at l2
    unfold Input.x bendOf
    rw [midOf_eq, b1, b2, abs_le]
    constructor <;> linarith [hn.1, hn.2, l1.1, l1.2, l2.1, l2.2]

/-- The control points of a strip are near the curve. -/
theorem strip_controls (hI : Within I δ W H σ) (hacc : 0 < I.accuracy) {y0 y1 : ℝ} {nbrs : List Nat} (hg : Group I y0 y1 nbrs) (hH : y1 ≤ y0 + H) {s : Strip}
    (hlo : y0 ≤ s.lo) (hlt : s.lo < s.hi) (hhi : s.hi ≤ y1) (ok : StripOk I nbrs s) {o : Nat} (ho : o ∈ nbrs) :
    |s.xm o - I.x o ((s.lo + s.hi) / 2)| ≤ W + bendOf I H σ ∧ |s.x1 o - I.x o s.hi| ≤ W := by
  have hW := hI.width
  have hω := bendOf_nonneg hI hacc
  obtain ⟨l1, l2, el⟩ := List.append_of_mem ho
  have inn : ∀ o' ∈ l1 ++ [o], o' ∈ nbrs := fun o' h => by rw [el]; simp at h ⊢; tauto
  have mid : ∀ o' ∈ nbrs, |midOf (fromCubic I.solve (recentred (I.seg o').toCubic s.lo s.hi)) s.lo s.hi - I.x o' ((s.lo + s.hi) / 2)| ≤ bendOf I H σ := by
    intro o' ho'
    have ha := hg.alive o' ho'
    exact mid_near hI hacc ha.1 (lt_of_le_of_lt ha.2.1 ha.2.2) hlt (ha.2.1.trans hlo) (hhi.trans (hg.le o' ho')) (by linarith) (ok.fits o' ho')
  constructor
  · obtain ⟨⟨o', ho', e⟩, up⟩ := ok.xm l1 o l2 el
    have h1 : midOf (fromCubic I.solve (recentred (I.seg o).toCubic s.lo s.hi)) s.lo s.hi ≤ s.xm o := up ⟨o, by simp, rfl⟩
    have h2 := abs_le.1 (mid o ho)
    have h3 := abs_le.1 (mid o' (inn o' ho'))
    have h4 := abs_le.1 (hI.group y0 y1 nbrs hg o' (inn o' ho') o ho ((s.lo + s.hi) / 2) (by linarith) (by linarith))
    rw [abs_le]
    constructor
    · linarith [h2.1]
    · rw [e]; linarith [h3.2, h4.2]
  · obtain ⟨⟨o', ho', e⟩, up⟩ := ok.x1 l1 o l2 el
    have h1 : I.x o s.hi ≤ s.x1 o := up ⟨o, by simp, rfl⟩
    have h4 := abs_le.1 (hI.group y0 y1 nbrs hg o' (inn o' ho') o ho s.hi (by linarith) hhi)
    rw [abs_le]
    constructor
    · linarith
    · rw [e]; exact h4.2

/-- The bound while the layout is made. -/
noncomputable def midBound (I : Input) (δ W H σ : ℝ) : ℝ := δ + W + 2 * bendOf I H σ

/-- A point of the path of `o`. -/
def Near (I : Input) (κ : ℝ) (o : Nat) (P : Pt) : Prop := ((I.first o).y ≤ P.y ∧ P.y ≤ (I.second o).y) ∧ |P.x - I.x o P.y| ≤ κ

/-- One quadratic. -/
theorem quad_dev (hI : Within I δ W H σ) (hacc : 0 < I.accuracy) {o : Nat} (ho : o < I.n) (hlt : (I.first o).y < (I.second o).y) {y0 : ℝ} (hy0 : (I.first o).y ≤ y0)
    {p q r : Pt} {κ : ℝ} (hp : Near I κ o p) (hq : Near I κ o q) (hr : Near I κ o r)
    (hw : isLine (I.seg o) = true ∨ ((y0 ≤ p.y ∧ p.y ≤ y0 + H) ∧ (y0 ≤ q.y ∧ q.y ≤ y0 + H) ∧ (y0 ≤ r.y ∧ r.y ≤ y0 + H))) {t : ℝ} (t0 : 0 ≤ t) (t1 : t ≤ 1) :
    Near I (κ + bendOf I H σ) o ((Quad.mk p q r).eval t) := by
  obtain ⟨hm, hsp⟩ := hI.mono o ho hlt
  by_cases hl : isLine (I.seg o) = true
  · obtain ⟨a, b, hs⟩ := straight_of_line hl hm
    have hω := bendOf_nonneg hI hacc
    refine quad_near (f := I.x o) (fun y0 y1 y2 t k0 k0' k1 k1' k2 k2' t0 t1 => ?_) hp.1 hq.1 hr.1 hp.2 hq.2 hr.2 t0 t1
    unfold Input.x
    rw [straight_bend hs ⟨hsp.1.trans k0, k0'.trans hsp.2.2⟩ ⟨hsp.1.trans k1, k1'.trans hsp.2.2⟩ ⟨hsp.1.trans k2, k2'.trans hsp.2.2⟩ t0 t1, sub_self, abs_zero]
    exact hω
  · obtain ⟨wp, wq, wr⟩ := hw.resolve_left hl
    have hst := (hI.steep o ho hlt).resolve_left hl
    have win : ∀ {y}, y0 ≤ y ∧ y ≤ y0 + H → y ≤ (I.second o).y → y0 ≤ y ∧ y ≤ min (y0 + H) (I.second o).y := fun h h' => ⟨h.1, le_min h.2 h'⟩
    have := quad_near (f := I.x o) (lo := y0) (hi := min (y0 + H) (I.second o).y) (κ := κ) (ω := bendOf I H σ) (fun a b c t k0 k0' k1 k1' k2 k2' t0 t1 => ?_)
      (win wp hp.1.2) (win wq hq.1.2) (win wr hr.1.2) hp.2 hq.2 hr.2 t0 t1
    · exact ⟨⟨hy0.trans this.1.1, this.1.2.trans (min_le_right _ _)⟩, this.2⟩
    · refine (steep_bend hm hI.sigma.1 hst (hsp.1.trans hy0) ((min_le_right _ _).trans hsp.2.2) ⟨k0, k0'⟩ ⟨k1, k1'⟩ ⟨k2, k2'⟩ t0 t1).trans ?_
      have h1 : min (y0 + H) (I.second o).y - y0 ≤ H := by linarith [min_le_left (y0 + H) (I.second o).y]
      have h2 := mul_le_mul_of_nonneg_left h1 hI.sigma.1
      have h3 := hI.sigma.1
      unfold bendOf
      nlinarith

/-- The quadratics of the strips. -/
theorem strips_dev (hI : Within I δ W H σ) (hacc : 0 < I.accuracy) {y0 y1 : ℝ} {nbrs : List Nat} (hg : Group I y0 y1 nbrs) (hH : y1 ≤ y0 + H) {o : Nat} (ho : o ∈ nbrs)
    {u v : ℝ} {ss : List Strip} (hst : Stacked u v ss) : y0 ≤ u → v = y1 → (∀ s ∈ ss, StripOk I nbrs s) → ∀ S : Pt, Near I (δ + W) o S →
      (isLine (I.seg o) = true ∨ (y0 ≤ S.y ∧ S.y ≤ y0 + H)) →
      (∀ P ∈ trace S (ss.map fun s => s.el o), Near I (midBound I δ W H σ) o P) ∧
      ∀ e ∈ (ss.map fun s => s.el o).getLast?, Near I (δ + W) o e.stop := by
  have ha := hg.alive o ho
  have hlt := lt_of_le_of_lt ha.2.1 ha.2.2
  have hd := hI.delta
  have hω := bendOf_nonneg hI hacc
  induction hst with
  | nil y =>
    intro _ _ _ S _ _
    exact ⟨fun P hP => by simp [trace] at hP, fun e he => by simp at he⟩
  | cons s hs hst ih =>
    rename_i l
    intro hu hv hok S hS hw
    have hhi : s.hi ≤ y1 := hv ▸ hst.le
    have hle := hg.le o ho
    obtain ⟨c1, c2⟩ := strip_controls hI hacc hg hH hu hs hhi (hok s (by simp)) ho
    have nM : Near I (δ + W + bendOf I H σ) o ⟨s.xm o, (s.lo + s.hi) / 2⟩ := ⟨⟨by simp only; linarith [ha.2.1], by simp only; linarith⟩, c1.trans (by linarith)⟩
    have nE : Near I (δ + W) o ⟨s.x1 o, s.hi⟩ := ⟨⟨by simp only; linarith [ha.2.1], by simp only; linarith⟩, c2.trans (by linarith)⟩
    have wE : y0 ≤ s.hi ∧ s.hi ≤ y0 + H := ⟨by linarith, by linarith⟩
    have wM : y0 ≤ (s.lo + s.hi) / 2 ∧ (s.lo + s.hi) / 2 ≤ y0 + H := ⟨by linarith, by linarith⟩
    obtain ⟨i1, i2⟩ := ih (hu.trans hs.le) hv (fun s' hs' => hok s' (by simp [hs'])) ⟨s.x1 o, s.hi⟩ nE (.inr wE)
    constructor
    · intro P hP
      rcases hP with ⟨t, t0, t1, rfl⟩ | hP
      · have := quad_dev hI hacc ha.1 hlt ha.2.1 (κ := δ + W + bendOf I H σ) ⟨hS.1, hS.2.trans (by linarith)⟩ nM ⟨nE.1, nE.2.trans (by linarith)⟩
          (hw.imp id fun h => ⟨h, wM, wE⟩) t0 t1
        exact ⟨this.1, this.2.trans (by unfold midBound; linarith)⟩
      · exact i1 P hP
    · intro e he
      rw [List.map_cons, List.getLast?_cons] at he
      cases hl : (l.map fun s => s.el o).getLast? with
      | none => rw [hl] at he; simp at he; subst he; exact nE
      | some e' => rw [hl] at he; simp at he; subst he; exact i2 e' (by rw [hl]; rfl)

/-! ## Whole paths -/

/-- The end of a list of elements that begins at `p`. -/
def stopOf (p : Pt) (els : List El) : Pt :=
  match els.getLast? with
  | none => p
  | some e => e.stop

theorem stop_eq (p : OPath) : p.stop = stopOf p.start p.els := rfl

theorem stopOf_append (p : Pt) (a b : List El) : stopOf p (a ++ b) = stopOf (stopOf p a) b := by
  unfold stopOf
  rw [List.getLast?_append]
  cases b.getLast? <;> simp

theorem trace_append (a : List El) : ∀ (p : Pt) (b : List El), trace p (a ++ b) = trace p a ∪ trace (stopOf p a) b := by
  induction a with
  | nil => intro p b; simp [trace, stopOf]
  | cons e a ih =>
    intro p b
    have : stopOf p (e :: a) = stopOf e.stop a := by
      unfold stopOf; rw [List.getLast?_cons]; cases a.getLast? <;> simp
    rw [List.cons_append, trace, trace, ih, this, Set.union_assoc]

theorem bez3_shift (a b c d a' d' t : ℝ) : bez3 a' b c d' t = bez3 a b c d t + ((1 - t) ^ 3 * (a' - a) + t ^ 3 * (d' - d)) := by unfold bez3; ring

theorem cube_mix {x y t κ : ℝ} (t0 : 0 ≤ t) (t1 : t ≤ 1) (hx : |x| ≤ κ) (hy : |y| ≤ κ) : |(1 - t) ^ 3 * x + t ^ 3 * y| ≤ κ := by
  have hκ := (abs_nonneg _).trans hx
  have h0 : 0 ≤ (1 - t) ^ 3 := pow_nonneg (by linarith) 3
  have h1 : 0 ≤ t ^ 3 := pow_nonneg t0 3
  have h2 : (1 - t) ^ 3 + t ^ 3 ≤ 1 := by nlinarith [mul_nonneg t0 (by linarith : 0 ≤ 1 - t)]
  rw [abs_le] at *
  constructor <;> nlinarith

/-- What is copied. -/
theorem copy_dev (hI : Within I δ W H σ) {o : Nat} (ho : o < I.n) (hlt : (I.first o).y < (I.second o).y) {p : OPath} (hp : Near I (δ + W) o p.stop) {y : ℝ}
    (hy : p.stop.y < y) (hy1 : y ≤ (I.second o).y) :
    (∀ P ∈ (copyEl I o p y).trace p.stop, Near I (δ + W) o P) ∧ Near I (δ + W) o (copyEl I o p y).stop ∧
      (isLine (I.seg o) = true ∨ (copyEl I o p y).stop.y = y) := by
  obtain ⟨hm, hsp⟩ := hI.mono o ho hlt
  have hs := hI.second o ho hlt
  have hW := hI.width
  have hd := hI.delta
  unfold copyEl
  by_cases hl : isLine (I.seg o) = true
  · rw [if_pos hl]
    have n2 : Near I (δ + W) o (I.second o) := ⟨⟨hlt.le, le_rfl⟩, hs.trans (by linarith)⟩
    refine ⟨?_, n2, .inl hl⟩
    rintro P ⟨t, t0, t1, rfl⟩
    obtain ⟨a, b, hst⟩ := straight_of_line hl hm
    have hr : (I.first o).y ≤ (1 - t) * p.stop.y + t * (I.second o).y ∧ (1 - t) * p.stop.y + t * (I.second o).y ≤ (I.second o).y := by
      have := hp.1
      constructor <;> nlinarith
    refine ⟨hr, ?_⟩
    have k1 := hp.2
    have k2 := n2.2
    have hx : ∀ {z}, (I.first o).y ≤ z → z ≤ (I.second o).y → I.x o z = a + b * z := fun h h' => hst.solveX (hsp.1.trans h) (h'.trans hsp.2.2)
    simp only [Pt.affine]
    rw [hx hr.1 hr.2]
    rw [hx hp.1.1 hp.1.2, abs_le] at k1
    rw [hx hlt.le le_rfl, abs_le] at k2
    rw [abs_le]
    constructor <;> nlinarith
  · rw [if_neg hl]
    have sp : (I.seg o).toCubic.Spans p.stop.y y := ⟨hsp.1.trans hp.1.1, hy.le, hy1.trans hsp.2.2⟩
    obtain ⟨c, hc⟩ : ∃ c, c = ySubsegment (I.seg o).toCubic p.stop.y y := ⟨_, rfl⟩
    obtain ⟨q, hq⟩ : ∃ q, q = (nextSub (I.seg o) p y (I.second o)).p3 := ⟨_, rfl⟩
    have e0 : c.p0 = ⟨I.x o p.stop.y, p.stop.y⟩ := by rw [hc]; rfl
    have e3 : c.p3 = ⟨I.x o y, y⟩ := by rw [hc]; rfl
    have qy : q.y = y := by rw [hq]; exact nextSub_stop _ _ _ _
    have qx : |q.x - I.x o y| ≤ δ + W := by
      rw [hq]
      unfold nextSub
      dsimp only
      split
      · rename_i h
        rw [← h]; exact hs.trans (by linarith)
      · rw [sub_p3]
        change |I.x o y - I.x o y| ≤ _
        rw [sub_self, abs_zero]; linarith
    have ee : (nextSub (I.seg o) p y (I.second o)).p1 = c.p1 ∧ (nextSub (I.seg o) p y (I.second o)).p2 = c.p2 := by rw [hc]; exact ⟨rfl, rfl⟩
    rw [ee.1, ee.2, ← hq]
    refine ⟨?_, ⟨⟨by simp only [El.stop, qy]; linarith [hp.1.1], by simp only [El.stop, qy]; exact hy1⟩, by simp only [El.stop, qy]; exact qx⟩, .inr qy⟩
    rintro P ⟨t, t0, t1, rfl⟩
    obtain ⟨b1, b2, b3⟩ := sub_on hm sp t0 t1
    rw [← hc] at b1 b2 b3
    have ey : ((Cubic.mk p.stop c.p1 c.p2 q).eval t).y = (c.eval t).y := by
      simp only [Cubic.eval, qy, e0, e3]
    have ex : ((Cubic.mk p.stop c.p1 c.p2 q).eval t).x = (c.eval t).x + ((1 - t) ^ 3 * (p.stop.x - I.x o p.stop.y) + t ^ 3 * (q.x - I.x o y)) := by
      simp only [Cubic.eval]
      rw [bez3_shift c.p0.x c.p1.x c.p2.x c.p3.x, e0, e3]
    refine ⟨⟨by rw [ey]; linarith [hp.1.1], by rw [ey]; linarith⟩, ?_⟩
    rw [ex, ey, b3]
    change |I.x o (c.eval t).y + _ - I.x o (c.eval t).y| ≤ _
    rw [add_sub_cancel_left]
    exact cube_mix t0 t1 hp.2 qx

/-- What is known about the path of an output segment that is not horizontal, while the layout is made. -/
structure Along (I : Input) (δ W H σ : ℝ) (hist : List Step) (o : Nat) (p : OPath) : Prop where
  near : ∀ P ∈ trace p.start p.els, Near I (midBound I δ W H σ) o P
  stop : Near I (δ + W) o p.stop
  low : isLine (I.seg o) = true ∨ p.stop.y ≤ (I.first o).y ∨ ∃ st ∈ hist, p.stop.y ≤ st.y0 + H

theorem Along.init (hI : Within I δ W H σ) {o : Nat} (ho : o < I.n) (hlt : (I.first o).y < (I.second o).y) : Along I δ W H σ [] o (initPath I o) := by
  have e : initPath I o = ⟨I.first o, [], none⟩ := by rw [initPath, if_neg hlt.ne]
  rw [e]
  exact ⟨fun P hP => by simp [trace] at hP, ⟨⟨le_rfl, hlt.le⟩, (hI.first o ho hlt).trans (by linarith [hI.width])⟩, .inr (.inl le_rfl)⟩

theorem Along.mono {hist : List Step} {o : Nat} {p : OPath} (h : Along I δ W H σ hist o p) (st : Step) : Along I δ W H σ (hist ++ [st]) o p :=
  ⟨h.near, h.stop, h.low.imp id fun h => h.imp id fun ⟨s, h1, h2⟩ => ⟨s, by simp [h1], h2⟩⟩

/-- One step. -/
theorem Along.step (hI : Within I δ W H σ) (hacc : 0 < I.accuracy) {hist : List Step} {st : Step} (hsort : ∀ s ∈ hist, s.y0 ≤ st.y0) (hg : Group I st.y0 st.y1 st.nbrs)
    {out out' : Nat → OPath} (he : Effect I st.y0 st.y1 st.nbrs out out') {o : Nat} (h : Along I δ W H σ hist o (out o)) :
    Along I δ W H σ (hist ++ [st]) o (out' o) := by
  cases he with
  | nothing _ => exact h.mono st
  | strips h2 hl ss hs ok out' hh =>
    rw [hh o]
    by_cases ho : o ∈ st.nbrs
    · rw [if_pos ho]
      have ha := hg.alive o ho
      have hlt := lt_of_le_of_lt ha.2.1 ha.2.2
      have hW := hI.width
      have hω := bendOf_nonneg hI hacc
      have hcurve : ∃ o ∈ st.nbrs, isLine (I.seg o) = false := by
        by_contra hc
        push Not at hc
        exact hl (.inl fun o ho => (isLine_iff _).1 (by simpa using hc o ho))
      have hH := hI.short _ _ _ hg h2 hcurve
      -- the path before the strips
      have key : (∀ P ∈ trace (ensureOne I st.y0 o (out o)).start (ensureOne I st.y0 o (out o)).els, Near I (midBound I δ W H σ) o P) ∧
          Near I (δ + W) o (ensureOne I st.y0 o (out o)).stop ∧
          (isLine (I.seg o) = true ∨ (st.y0 ≤ (ensureOne I st.y0 o (out o)).stop.y ∧ (ensureOne I st.y0 o (out o)).stop.y ≤ st.y0 + H)) := by
        rcases ensureOne_cases I st.y0 o (out o) with ⟨e, hy⟩ | ⟨hy, e⟩
        · rw [e]
          refine ⟨h.near, h.stop, h.low.imp id fun k => ⟨hy, ?_⟩⟩
          rcases k with k | ⟨s, s1, s2⟩
          · linarith [ha.2.1, hI.high]
          · linarith [hsort s s1]
        · obtain ⟨c1, c2, c3⟩ := copy_dev hI ha.1 hlt h.stop hy ha.2.2.le
          have es : (ensureOne I st.y0 o (out o)).stop = (copyEl I o (out o) st.y0).stop := by rw [e]; simp [OPath.stop]
          rw [es, e]
          refine ⟨?_, c2, c3.imp id fun k => ⟨k.ge, by rw [k]; linarith [hI.high]⟩⟩
          intro P hP
          rw [trace_append] at hP
          rcases hP with hP | hP
          · exact h.near P hP
          · rw [trace, trace, Set.union_empty] at hP
            have := c1 P hP
            exact ⟨this.1, this.2.trans (by unfold midBound; linarith)⟩
      obtain ⟨k1, k2, k3⟩ := key
      obtain ⟨m1, m2⟩ := strips_dev hI hacc hg hH ho hs le_rfl rfl ok _ k2 k3
      have hne : ss ≠ [] := by
        rintro rfl
        have := hs.nil_eq
        linarith [hg.lt]
      have hstop : ({ ensureOne I st.y0 o (out o) with els := (ensureOne I st.y0 o (out o)).els ++ ss.map fun s => s.el o } : OPath).stop =
          stopOf (ensureOne I st.y0 o (out o)).stop (ss.map fun s => s.el o) := by
        rw [stop_eq, stopOf_append]; rfl
      refine ⟨?_, ?_, .inr (.inr ⟨st, by simp, ?_⟩)⟩
      · intro P hP
        rw [trace_append] at hP
        rcases hP with hP | hP
        · exact k1 P hP
        · exact m1 P hP
      · rw [hstop]
        unfold stopOf
        cases hl : (ss.map fun s => s.el o).getLast? with
        | none => exact k2
        | some e => exact m2 e (by rw [hl]; rfl)
      · rw [stacked_stop hs o _ (.inr hne)]
        exact hH
    · rw [if_neg ho]; exact h.mono st

theorem History.along (hI : Within I δ W H σ) (hacc : 0 < I.accuracy) {hist : List Step} {out : Nat → OPath} (h : History I hist out)
    (hs : hist.Pairwise fun a b => a.y0 ≤ b.y0) {o : Nat} (ho : o < I.n) (hlt : (I.first o).y < (I.second o).y) : Along I δ W H σ hist o (out o) := by
  induction h with
  | nil => exact Along.init hI ho hlt
  | snoc hist out st out' _ hg he ih =>
    rw [List.pairwise_append] at hs
    exact (ih hs.1).step hI hacc (fun s h => hs.2.2 s h st (by simp)) hg he

/-- The end of an element is moved to the side. -/
theorem setStop_trace {e : El} {q S P : Pt} (hy : q.y = e.stop.y) (hP : P ∈ (e.setStop q).trace S) :
    ∃ Q ∈ e.trace S, P.y = Q.y ∧ |P.x - Q.x| ≤ |q.x - e.stop.x| := by
  have key : ∀ {a w : ℝ}, 0 ≤ w → w ≤ 1 → |w * a| ≤ |a| := fun h0 h1 => by
    rw [abs_mul, abs_of_nonneg h0]; exact mul_le_of_le_one_left (abs_nonneg _) h1
  cases e with
  | line p =>
    obtain ⟨t, t0, t1, rfl⟩ := hP
    refine ⟨S.affine p t, ⟨t, t0, t1, rfl⟩, ?_, ?_⟩
    · simp only [Pt.affine]; rw [hy]; rfl
    · have := key (a := q.x - p.x) t0 t1
      simp only [Pt.affine, El.stop]
      rwa [show (1 - t) * S.x + t * q.x - ((1 - t) * S.x + t * p.x) = t * (q.x - p.x) by ring]
  | quad a p =>
    obtain ⟨t, t0, t1, rfl⟩ := hP
    refine ⟨(Quad.mk S a p).eval t, ⟨t, t0, t1, rfl⟩, ?_, ?_⟩
    · simp only [Quad.eval]; rw [hy]; rfl
    · have := key (a := q.x - p.x) (w := t ^ 2) (by positivity) (by nlinarith)
      simp only [Quad.eval, El.stop, bez2]
      rwa [show (1 - t) ^ 2 * S.x + 2 * (1 - t) * t * a.x + t ^ 2 * q.x - ((1 - t) ^ 2 * S.x + 2 * (1 - t) * t * a.x + t ^ 2 * p.x) = t ^ 2 * (q.x - p.x) by ring]
  | curve a b p =>
    obtain ⟨t, t0, t1, rfl⟩ := hP
    refine ⟨(Cubic.mk S a b p).eval t, ⟨t, t0, t1, rfl⟩, ?_, ?_⟩
    · simp only [Cubic.eval]; rw [hy]; rfl
    · have := key (a := q.x - p.x) (w := t ^ 3) (by positivity) (pow_le_one₀ t0 t1)
      simp only [Cubic.eval, El.stop, bez3]
      rwa [show (1 - t) ^ 3 * S.x + 3 * (1 - t) ^ 2 * t * a.x + 3 * (1 - t) * t ^ 2 * b.x + t ^ 3 * q.x -
        ((1 - t) ^ 3 * S.x + 3 * (1 - t) ^ 2 * t * a.x + 3 * (1 - t) * t ^ 2 * b.x + t ^ 3 * p.x) = t ^ 3 * (q.x - p.x) by ring]

/-- The last part. -/
theorem finish_dev (hI : Within I δ W H σ) (hacc : 0 < I.accuracy) {hist : List Step} {o : Nat} (ho : o < I.n) (hlt : (I.first o).y < (I.second o).y) {p : OPath}
    (hp : PathOk I o p) (h : Along I δ W H σ hist o p) : ∀ P ∈ trace (finish I o p).start (finish I o p).els, Near I (3 * δ + 2 * W + 2 * bendOf I H σ) o P := by
  have hd := hI.delta
  have hW := hI.width
  have hω := bendOf_nonneg hI hacc
  unfold finish
  by_cases hy : p.stop.y < (I.second o).y
  · rw [if_pos hy]
    obtain ⟨c1, -, -⟩ := copy_dev hI ho hlt h.stop hy le_rfl
    have e : (if isLine (I.seg o) = true then ({ p with copied := some p.els.length } : OPath).push (.line (I.second o))
        else ({ p with copied := some p.els.length } : OPath).push (.curve (nextSub (I.seg o) p (I.second o).y (I.second o)).p1
          (nextSub (I.seg o) p (I.second o).y (I.second o)).p2 (nextSub (I.seg o) p (I.second o).y (I.second o)).p3)) =
        ⟨p.start, p.els ++ [copyEl I o p (I.second o).y], some p.els.length⟩ := by
      unfold copyEl
      split <;> rfl
    dsimp only
    rw [e]
    intro P hP
    rw [trace_append] at hP
    rcases hP with hP | hP
    · have := h.near P hP
      exact ⟨this.1, this.2.trans (by unfold midBound; linarith)⟩
    · rw [trace, trace, Set.union_empty] at hP
      have := c1 P hP
      exact ⟨this.1, this.2.trans (by linarith)⟩
  · rw [if_neg hy]
    have hst : p.stop.y = (I.second o).y := le_antisymm h.stop.1.2 (not_lt.1 hy)
    cases hl : p.els.getLast? with
    | none =>
      exfalso
      have : p.stop = p.start := by rw [OPath.stop, hl]
      rw [this, hp.start] at hst
      linarith
    | some e =>
      have hstop : p.stop = e.stop := by rw [OPath.stop, hl]
      have hels : p.els = p.els.dropLast ++ [e] := by
        obtain ⟨l, hl'⟩ := List.getLast?_eq_some_iff.1 hl
        rw [hl']; simp
      intro P hP
      simp only at hP
      have hn := h.near
      rw [hels, trace_append] at hn
      rw [trace_append] at hP
      rcases hP with hP | hP
      · have := hn P (.inl hP)
        exact ⟨this.1, this.2.trans (by unfold midBound; linarith)⟩
      · rw [trace, trace, Set.union_empty] at hP
        obtain ⟨Q, hQ, hy', hx'⟩ := setStop_trace (by rw [← hstop, hst]) hP
        have := hn Q (.inr (by rw [trace, trace, Set.union_empty]; exact hQ))
        refine ⟨by rw [hy']; exact this.1, ?_⟩
        have k := h.stop.2
        have s := hI.second o ho hlt
        rw [hst, hstop] at k
        have k' : |(I.second o).x - e.stop.x| ≤ δ + (δ + W) := by
          rw [abs_le] at k s ⊢
          constructor <;> linarith [k.1, k.2, s.1, s.2]
        have k2 := this.2
        rw [hy']
        unfold midBound at k2
        rw [abs_le] at k2 hx' ⊢
        constructor <;> linarith [k2.1, k2.2, hx'.1, hx'.2]

theorem History.path {hist : List Step} {out : Nat → OPath} (h : History I hist out) : ∀ o, PathOk I o (out o) := by
  induction h with
  | nil => exact initPath_ok I
  | snoc hist out st out' _ hg he ih => exact he.path hg ih

/-- **C88.** Every point of every finished path (of an output segment that is not horizontal) is between the heights of its ends, and horizontally within
`3 δ + 2 W + 2 ω` of the input segment, where `ω` is `bendOf`. -/
theorem C88_deviation (ok : I.Ok) (hI : Within I δ W H σ) : ∃ N out, (∀ n ≥ N, computePositions I n = some out) ∧
    ∀ o < I.n, (I.first o).y < (I.second o).y → ∀ P ∈ trace (out o).start (out o).els,
      ((I.first o).y ≤ P.y ∧ P.y ≤ (I.second o).y) ∧ |P.x - I.x o P.y| ≤ 3 * δ + 2 * W + 2 * bendOf I H σ := by
  obtain ⟨N, out, hist, paths, h1, h2, h3, h4, -, -⟩ := C73_groups ok
  refine ⟨N, out, h1, fun o ho hlt P hP => ?_⟩
  rw [h3 o] at hP
  refine finish_dev hI ok.acc ho hlt (h2.path o) (h2.along hI ok.acc h4 ho hlt) P hP

end

end Verif.Pos
