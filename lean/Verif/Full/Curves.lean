import Verif.Full.Loose
import Verif.Geom.Rough

/-!
# Curves in general position

A sufficient condition on the geometry alone for `General`, for all monotone segments: straight lines and curves.
-/

namespace Verif.Full
open Verif.Segs (Segments PathEl)
open Verif.Curve Verif.BinOp
set_option linter.unusedSectionVars false

/-! ## Specification -/

/-- `ρ` bounds what the estimates of the segment leave open: for a straight line this is only the padding; the control points of any part of a curve that is
`eps / 2` high are at most `X` to the left or right of its upper end, and no point of it is further than `B` from the vertical axis. -/
def Gentle (eps ρ : ℝ) (g : Geom.Seg) : Prop :=
  0 ≤ ρ ∧ ∃ B, (∀ y, g.start.y ≤ y → y ≤ g.stop.y → |g.atY y| ≤ B) ∧
    ((Line g ∧ 2 * max B (|slope g| * max (eps / 2) 1) / 10 ^ 12 ≤ ρ) ∨
      ∃ X, (∀ u, g.start.y ≤ u → u + eps / 2 ≤ g.stop.y → (Geom.ySubsegment g.toCubic u (u + eps / 2)).Extent X) ∧ Geom.roughness (eps / 2) B X ≤ ρ)

/-- Not more than `2 eps` above or below the height `t` there are points of the segments `a` and `b` that are horizontally not more than `3/2 eps + w` apart. -/
def Near (eps w t : ℝ) (a b : Geom.Seg) : Prop :=
  ∃ y0 y1, (a.start.y ≤ y0 ∧ y0 ≤ a.stop.y) ∧ (b.start.y ≤ y1 ∧ y1 ≤ b.stop.y) ∧ |y0 - t| ≤ 2 * eps ∧ |y1 - t| ≤ 2 * eps ∧
    |b.atY y1 - a.atY y0| ≤ 3 / 2 * eps + w

/-- At some height that they have in common, `a` is clearly to the left of `b`: the parts not more than `2 eps` above or below are more than `3/2 eps + w` apart. -/
def Cleared (eps w : ℝ) (a b : Geom.Seg) : Prop :=
  (∃ y, max a.start.y b.start.y < y ∧ y ≤ min a.stop.y b.stop.y ∧
    ∀ y0 y1, a.start.y ≤ y0 → y0 ≤ a.stop.y → b.start.y ≤ y1 → y1 ≤ b.stop.y → |y0 - y| ≤ 2 * eps → |y1 - y| ≤ 2 * eps → a.atY y0 + (3 / 2 * eps + w) < b.atY y1) ∨
  (max a.start.y b.start.y = min a.stop.y b.stop.y ∧ a.atY (max a.start.y b.start.y) + eps < b.atY (max a.start.y b.start.y))

/-- The segments do not cross, and if they differ they are clearly apart somewhere. -/
def Peaceful (eps w : ℝ) (a b : Geom.Seg) : Prop := (LeftOf a b → ¬ LeftOf b a ∧ Cleared eps w a b) ∧ (LeftOf b a → ¬ LeftOf a b ∧ Cleared eps w b a)

/-- There is a chain of segments from one to the other of which every two neighbours are near each other at the height `t`. -/
def NearChain (eps : ℝ) (ρ : Nat → ℝ) (s : Segments ℝ) (t : ℝ) : Nat → Nat → Prop :=
  Relation.ReflTransGen fun i j => Has s t i ∧ Has s t j ∧ Near eps (ρ i + ρ j) t (segAt s i) (segAt s j)

/-- Segments in general position. Of two segments that cross, or that differ but are nowhere clearly apart, it is asked that no third segment is near where they
are near each other, and that at the height of an end they are only near each other if they have an end in common there. -/
structure LooseCurves (eps : ℝ) (ρ : Nat → ℝ) (s : Segments ℝ) : Prop where
  gentle : ∀ i, Slanted s i → Gentle eps (ρ i) (segAt s i)
  upright : ∀ i j, Slanted s i → Slanted s j → Geom.Upright (eps / 2) (segAt s i).toCubic (segAt s j).toCubic
  alone : ∀ i j k t, i ≠ j → Has s t i → Has s t j → Has s t k → ¬ Peaceful eps (ρ i + ρ j) (segAt s i) (segAt s j) → NearChain eps ρ s t i j →
    Near eps (ρ i + ρ k) t (segAt s i) (segAt s k) → k = i ∨ k = j
  ends : ∀ i j t, i ≠ j → ¬ Peaceful eps (ρ i + ρ j) (segAt s i) (segAt s j) → Vertex s t → Has s t i → Has s t j →
    Near eps (ρ i + ρ j) t (segAt s i) (segAt s j) → Share t (segAt s i) (segAt s j)

/-- All points of slanted segments that are at most `2 eps` higher or lower than the point are at least `eps + ρ` to the left or at least `eps + ρ` to the right. -/
def OffCurves (eps : ℝ) (ρ : Nat → ℝ) (s : Segments ℝ) (x z : ℝ) : Prop := ∀ i, Has s z i →
  (∀ y, |y - z| ≤ 2 * eps → (segAt s i).start.y ≤ y → y ≤ (segAt s i).stop.y → (segAt s i).atY y ≤ x - (eps + ρ i)) ∨
  (∀ y, |y - z| ≤ 2 * eps → (segAt s i).start.y ≤ y → y ≤ (segAt s i).stop.y → x + (eps + ρ i) ≤ (segAt s i).atY y)

/-! ## Lemmas -/

theorem Near.symm {eps w t : ℝ} {a b : Geom.Seg} (h : Near eps w t a b) : Near eps w t b a := by
  obtain ⟨y0, y1, h1, h2, h3, h4, h5⟩ := h
  exact ⟨y1, y0, h2, h1, h4, h3, by rw [abs_sub_comm]; exact h5⟩

theorem Peaceful.symm {eps w : ℝ} {a b : Geom.Seg} (h : Peaceful eps w a b) : Peaceful eps w b a := ⟨h.2, h.1⟩

theorem NearChain.symm {eps : ℝ} {ρ : Nat → ℝ} {s : Segments ℝ} {t : ℝ} {i j : Nat} (h : NearChain eps ρ s t i j) : NearChain eps ρ s t j i := by
  unfold NearChain at h ⊢
  induction h with
  | refl => exact Relation.ReflTransGen.refl
  | tail _ h2 ih => exact (Relation.ReflTransGen.single ⟨h2.2.1, h2.1, by rw [add_comm]; exact h2.2.2.symm⟩).trans ih

theorem atY_solveX {g : Geom.Seg} (h : g.Down) {y : ℝ} (h0 : g.start.y ≤ y) (h1 : y ≤ g.stop.y) : g.atY y = Geom.solveX g.toCubic y :=
  (Geom.at_solveX (toCubic_mono h) (toCubic_at h h0 h1)).1

theorem continuousOn_atY {g : Geom.Seg} (h : g.Down) : ContinuousOn g.atY (Set.Icc g.start.y g.stop.y) := by
  have := Geom.continuousOn_solveX (toCubic_mono h)
  rw [(Geom.C42_to_cubic g).2.1, (Geom.C42_to_cubic g).2.2] at this
  exact this.congr fun y hy => atY_solveX h hy.1 hy.2

theorem Gentle.uncertainty {solve : ℝ → ℝ → ℝ → ℝ → List ℝ} (hsolve : Geom.FindsRoots solve) {eps ρ : ℝ} (he : 0 < eps) {g : Geom.Seg} (hd : g.Down)
    (h : Gentle eps ρ g) {u : ℝ} (hs : g.toCubic.Spans u (u + eps / 2)) : Geom.uncertainty solve g.toCubic u (u + eps / 2) ≤ ρ := by
  obtain ⟨-, B, hB, h⟩ := h
  have hs' := hs
  obtain ⟨s0, s1, s2⟩ := hs'
  rw [(Geom.C42_to_cubic g).2.1] at s0
  rw [(Geom.C42_to_cubic g).2.2] at s2
  have hB' : |Geom.solveX g.toCubic u| ≤ B := by
    rw [← atY_solveX hd s0 (by linarith)]
    exact hB u s0 (by linarith)
  rcases h with ⟨hl, h⟩ | ⟨X, hX, h⟩
  · refine le_trans ?_ h
    have e : u + eps / 2 - u = eps / 2 := by ring
    have hm : 0 < max (eps / 2) 1 := lt_of_lt_of_le one_pos (le_max_right _ _)
    have hk : (1 / max (eps / 2) 1) ≠ 0 := by positivity
    unfold Geom.uncertainty
    rw [e]
    have hy : (Geom.rescaleC ((u + (u + eps / 2)) / 2) (1 / max (eps / 2) 1) (Geom.ySubsegment g.toCubic u (u + eps / 2))).p0.y ≠
        (Geom.rescaleC ((u + (u + eps / 2)) / 2) (1 / max (eps / 2) 1) (Geom.ySubsegment g.toCubic u (u + eps / 2))).p3.y := by
      intro he
      simp only [Geom.rescaleC, Geom.sub_p0, Geom.sub_p3] at he
      have := mul_right_cancel₀ hk he
      linarith
    rw [Geom.fromCubic_straight solve ((hl.straight.sub hs).rescale ((u + (u + eps / 2)) / 2) hk) hy]
    have habs : |slope g / (1 / max (eps / 2) 1)| = |slope g| * max (eps / 2) 1 := by
      rw [div_div_eq_mul_div, div_one, abs_mul, abs_of_pos hm]
    have hmid : |g.start.x - slope g * g.start.y + slope g * ((u + (u + eps / 2)) / 2)| ≤ B := by
      have := hB ((u + (u + eps / 2)) / 2) (by linarith) (by linarith)
      rw [hl.atY_eq] at this
      convert this using 2
      ring
    simp only [Geom.EstParab.maxParam, habs, abs_zero]
    have : max (max |g.start.x - slope g * g.start.y + slope g * ((u + (u + eps / 2)) / 2)| (|slope g| * max (eps / 2) 1)) 0 ≤ max B (|slope g| * max (eps / 2) 1) :=
      max_le (max_le_max hmid le_rfl) (le_max_of_le_right (by positivity))
    have := div_le_div_of_nonneg_right (mul_le_mul_of_nonneg_left this (by norm_num : (0 : ℝ) ≤ 2)) (by positivity : (0 : ℝ) ≤ 10 ^ 12)
    linarith
  · exact (Geom.uncertainty_extent solve hsolve (toCubic_mono hd) (by linarith) hs (hX u s0 s2) hB').trans h

/-- What is left open about a segment whose control polygon is not flat. -/
theorem Gentle.of_steep {eps ρ σ B : ℝ} (he : 0 < eps) {g : Geom.Seg} (hd : g.Down) (hs : g.toCubic.Steep σ) (h0 : 0 ≤ ρ)
    (hB : ∀ y, g.start.y ≤ y → y ≤ g.stop.y → |g.atY y| ≤ B) (h : Geom.roughness (eps / 2) B (σ * (eps / 2)) ≤ ρ) : Gentle eps ρ g := by
  refine ⟨h0, B, hB, Or.inr ⟨_, fun u h0 h1 => ?_, h⟩⟩
  have := hs.extent_sub (u := u) (v := u + eps / 2) (toCubic_mono hd)
    ⟨by rw [(Geom.C42_to_cubic _).2.1]; exact h0, by linarith, by rw [(Geom.C42_to_cubic _).2.2]; exact h1⟩
  convert this using 1
  ring

/-- The heights near which two segments are near each other are a closed set. -/
theorem near_closed {eps w : ℝ} {a b : Geom.Seg} (ha : a.Down) (hb : b.Down) : IsClosed {t | Near eps w t a b} := by
  obtain ⟨K, hK⟩ : ∃ K : Set (ℝ × ℝ × ℝ), K = Set.Icc (a.start.y - 2 * eps) (a.stop.y + 2 * eps) ×ˢ Set.Icc a.start.y a.stop.y ×ˢ Set.Icc b.start.y b.stop.y := ⟨_, rfl⟩
  have cK : IsCompact K := by rw [hK]; exact isCompact_Icc.prod (isCompact_Icc.prod isCompact_Icc)
  have c1 : ContinuousOn (fun p : ℝ × ℝ × ℝ => a.atY p.2.1) K := (continuousOn_atY ha).comp (by fun_prop) (by rw [hK]; exact fun p hp => hp.2.1)
  have c2 : ContinuousOn (fun p : ℝ × ℝ × ℝ => b.atY p.2.2) K := (continuousOn_atY hb).comp (by fun_prop) (by rw [hK]; exact fun p hp => hp.2.2)
  have c3 : ContinuousOn (fun p : ℝ × ℝ × ℝ => |b.atY p.2.2 - a.atY p.2.1|) K := (c2.sub c1).abs
  have k3 := c3.preimage_isClosed_of_isClosed cK.isClosed (isClosed_Iic (a := 3 / 2 * eps + w))
  have k1 : IsClosed {p : ℝ × ℝ × ℝ | |p.2.1 - p.1| ≤ 2 * eps} := isClosed_le (by fun_prop) (by fun_prop)
  have k2 : IsClosed {p : ℝ × ℝ × ℝ | |p.2.2 - p.1| ≤ 2 * eps} := isClosed_le (by fun_prop) (by fun_prop)
  obtain ⟨S, hS⟩ : ∃ S, S = (K ∩ (fun p : ℝ × ℝ × ℝ => |b.atY p.2.2 - a.atY p.2.1|) ⁻¹' Set.Iic (3 / 2 * eps + w)) ∩ ({p | |p.2.1 - p.1| ≤ 2 * eps} ∩ {p | |p.2.2 - p.1| ≤ 2 * eps}) := ⟨_, rfl⟩
  have hc : IsClosed S := by rw [hS]; exact k3.inter (k1.inter k2)
  have hk : IsCompact S := IsCompact.of_isClosed_subset cK hc (by rw [hS]; exact fun p hp => hp.1.1)
  have e : {t | Near eps w t a b} = Prod.fst '' S := by
    rw [hS]
    ext t
    constructor
    · rintro ⟨y0, y1, h1, h2, h3, h4, h5⟩
      refine ⟨(t, y0, y1), ⟨⟨?_, h5⟩, h3, h4⟩, rfl⟩
      rw [hK]
      have := abs_le.1 h3
      exact ⟨⟨by dsimp only; linarith [h1.1], by dsimp only; linarith [h1.2]⟩, h1, h2⟩
    · rintro ⟨⟨_, y0, y1⟩, ⟨⟨h1, h5⟩, h3, h4⟩, rfl⟩
      rw [hK] at h1
      exact ⟨y0, y1, h1.2.1, h1.2.2, h3, h4, h5⟩
  rw [e]
  exact (hk.image continuous_fst).isClosed

/-- Between two heights at which two segments are ordered differently they meet. -/
theorem curves_cross {a b : Geom.Seg} (ha : a.Down) (hb : b.Down) {u v : ℝ} (u0 : max a.start.y b.start.y ≤ u) (u1 : u ≤ min a.stop.y b.stop.y)
    (v0 : max a.start.y b.start.y ≤ v) (v1 : v ≤ min a.stop.y b.stop.y) (h1 : a.atY u ≤ b.atY u) (h2 : b.atY v ≤ a.atY v) :
    ∃ w, min u v ≤ w ∧ w ≤ max u v ∧ a.atY w = b.atY w := by
  have sub : ∀ {w}, w ∈ Set.uIcc u v → max a.start.y b.start.y ≤ w ∧ w ≤ min a.stop.y b.stop.y := fun hw => ⟨(le_min u0 v0).trans hw.1, hw.2.trans (max_le u1 v1)⟩
  have hc : ContinuousOn (fun y => a.atY y - b.atY y) (Set.uIcc u v) :=
    ((continuousOn_atY ha).mono fun w hw => ⟨(le_max_left _ _).trans (sub hw).1, (sub hw).2.trans (min_le_left _ _)⟩).sub
      ((continuousOn_atY hb).mono fun w hw => ⟨(le_max_right _ _).trans (sub hw).1, (sub hw).2.trans (min_le_right _ _)⟩)
  have h0 : (0 : ℝ) ∈ Set.uIcc (a.atY u - b.atY u) (a.atY v - b.atY v) := by
    rw [Set.mem_uIcc]; left; constructor <;> linarith
  obtain ⟨w, hw, e⟩ := intermediate_value_uIcc hc h0
  exact ⟨w, hw.1, hw.2, by simpa [sub_eq_zero] using e⟩

/-- A segment reaches every position between two of its positions. -/
theorem curve_reaches {a : Geom.Seg} (ha : a.Down) {u v x : ℝ} (u0 : a.start.y ≤ u) (u1 : u ≤ a.stop.y) (v0 : a.start.y ≤ v) (v1 : v ≤ a.stop.y)
    (h1 : a.atY u ≤ x) (h2 : x ≤ a.atY v) : ∃ w, min u v ≤ w ∧ w ≤ max u v ∧ a.atY w = x := by
  have hc : ContinuousOn a.atY (Set.uIcc u v) := (continuousOn_atY ha).mono fun w hw => ⟨(le_min u0 v0).trans hw.1, hw.2.trans (max_le u1 v1)⟩
  obtain ⟨w, hw, e⟩ := intermediate_value_uIcc hc (show x ∈ Set.uIcc (a.atY u) (a.atY v) by rw [Set.mem_uIcc]; left; exact ⟨h1, h2⟩)
  exact ⟨w, hw.1, hw.2, e⟩

variable {solve : ℝ → ℝ → ℝ → ℝ → List ℝ} {eps : ℝ}

/-- What `intersect_cubics` says of two gentle segments. -/
theorem curves_out (hsolve : Geom.FindsRoots solve) (he : 0 < eps) {a b : Geom.Seg} (ha : a.Down) (hb : b.Down) {ra rb : ℝ} (ga : Gentle eps ra a) (gb : Gentle eps rb b)
    (hU : Geom.Upright (eps / 2) a.toCubic b.toCubic) (hov : max a.start.y b.start.y ≤ min a.stop.y b.stop.y) :
    ∃ out, Ends solve eps (eps / 2) a.toCubic b.toCubic out ∧ WF out ∧ out.start = max a.start.y b.start.y ∧ EndsAt out (min a.stop.y b.stop.y) ∧
      ∀ p ∈ out.iter, ∀ t, max a.start.y b.start.y ≤ t → t ≤ min a.stop.y b.stop.y → p.lo ≤ t → t ≤ p.hi →
        (p.order = .left → a.atY t + eps ≤ b.atY t) ∧ (p.order = .right → b.atY t + eps ≤ a.atY t) ∧
        (p.order = .ish → ∃ y0 y1, (a.start.y ≤ y0 ∧ y0 ≤ a.stop.y) ∧ (b.start.y ≤ y1 ∧ y1 ≤ b.stop.y) ∧ |y0 - t| ≤ eps ∧ |y1 - t| ≤ eps ∧
            |b.atY y1 - a.atY y0| ≤ 3 / 2 * eps + (ra + rb)) := by
  have ea0 : a.toCubic.p0 = a.start := (Geom.C42_to_cubic a).2.1
  have ea3 : a.toCubic.p3 = a.stop := (Geom.C42_to_cubic a).2.2
  have eb0 : b.toCubic.p0 = b.start := (Geom.C42_to_cubic b).2.1
  have eb3 : b.toCubic.p3 = b.stop := (Geom.C42_to_cubic b).2.2
  have ra0 := ga.1
  have rb0 := gb.1
  obtain ⟨N, out, h1, h2, h3, h4, h5⟩ := Geom.C68_tolerance solve hsolve eps (eps / 2) (by linarith) (by linarith) a.toCubic b.toCubic (toCubic_mono ha)
    (toCubic_mono hb) hU (by rw [ea0, ea3, eb0, eb3]; exact hov)
  rw [ea0, eb0] at h3
  rw [ea3, eb3] at h4
  refine ⟨out, ⟨N, h1⟩, h2, h3, h4, fun p hp t t0 t1 k0 k1 => ?_⟩
  have ta0 := (le_max_left _ _).trans t0
  have ta1 := t1.trans (min_le_left _ _)
  have tb0 := (le_max_right _ _).trans t0
  have tb1 := t1.trans (min_le_right _ _)
  obtain ⟨q1, q2, q3⟩ := h5 p hp t _ _ k0 k1 (toCubic_at ha ta0 ta1) (toCubic_at hb tb0 tb1)
  refine ⟨q1, q2, fun ho => ?_⟩
  rcases q3 ho with ⟨x0, y0, x1, y1, c1, c2, c3, c4, c5⟩ | ⟨u, sp, ⟨s0, s1⟩, _, _, e, _, hx⟩
  · obtain ⟨u1, u2, rfl⟩ := (toCubic_at_iff ha).1 c1
    obtain ⟨v1, v2, rfl⟩ := (toCubic_at_iff hb).1 c2
    exact ⟨y0, y1, ⟨u1, u2⟩, ⟨v1, v2⟩, c3, c4, by linarith⟩
  · refine ⟨t, t, ⟨ta0, ta1⟩, ⟨tb0, tb1⟩, by simpa using he.le, by simpa using he.le, ?_⟩
    rw [atY_solveX ha ta0 ta1, atY_solveX hb tb0 tb1]
    have := Geom.diffEst_spread solve a.toCubic b.toCubic u (u + eps / 2)
    have := ga.uncertainty hsolve he ha s0
    have := gb.uncertainty hsolve he hb s1
    linarith

/-- Where the comparison of two gentle segments says nothing they are near each other. -/
theorem ish_near (hsolve : Geom.FindsRoots solve) (he : 0 < eps) {a b : Geom.Seg} (ha : a.Down) (hb : b.Down) {ra rb : ℝ} (ga : Gentle eps ra a) (gb : Gentle eps rb b)
    (hU : Geom.Upright (eps / 2) a.toCubic b.toCubic) {t : ℝ} (ta : a.start.y ≤ t ∧ t ≤ a.stop.y) (tb : b.start.y ≤ t ∧ t ≤ b.stop.y)
    {q : Piece ℝ} (hq : q ∈ (compareNew solve eps (eps / 2) eps a b).iter) (ho : q.order = .ish) (q1 : q.lo ≤ t) (q2 : t ≤ q.hi) : Near eps (ra + rb) t a b := by
  have hov : max a.start.y b.start.y ≤ min a.stop.y b.stop.y := (max_le ta.1 tb.1).trans (le_min ta.2 tb.2)
  have ra0 := ga.1
  have rb0 := gb.1
  obtain ⟨out, o1, o2, o3, o4, o5⟩ := curves_out hsolve he ha hb ga gb hU hov
  obtain ⟨w, w1, -, -, -, -, w6, w7⟩ := compareNew_spec hsolve (by linarith : 0 < eps / 2) (by linarith : eps / 2 ≤ eps) he ha hb hov
  obtain rfl := w1.unique o1
  rcases eq_or_lt_of_le hov with heq | hlt
  · have e1 := touch_out ha hb heq o1
    have ht : t = max a.start.y b.start.y := le_antisymm (by rw [heq]; exact le_min ta.2 tb.2) (max_le ta.1 tb.1)
    have hsame : w.withYSlop false (· - eps) (· + eps) = some w := by
      rw [e1, heq]; simp [CurveOrder.withYSlop]
    rw [w6] at hsame
    rw [Option.some.inj hsame, e1] at hq
    simp only [CurveOrder.iter, pieces, List.mem_singleton] at hq
    rw [hq, ← ht] at ho
    refine ⟨t, t, ta, tb, by simpa using he.le, by simpa using he.le, ?_⟩
    unfold Geom.tolOrder at ho
    split_ifs at ho
    rw [abs_le]; constructor <;> linarith
  · have hdown : ∀ x : ℝ, (fun x => x - eps) x ≤ x := fun x => by dsimp only; linarith
    have hup : ∀ x : ℝ, x < (fun x => x + eps) x := fun x => by dsimp only; linarith
    have mdown : ∀ x y : ℝ, x ≤ y → (fun x => x - eps) x ≤ (fun x => x - eps) y := fun x y h => by dsimp only; linarith
    have mup : ∀ x y : ℝ, x ≤ y → (fun x => x + eps) x ≤ (fun x => x + eps) y := fun x y h => by dsimp only; linarith
    have hst := slop_strict _ _ hdown hup mup w o2 o4 (by rw [o3]; exact hlt) w6 q hq ho
    have hlo := (w7.wf.2.lo_le q hq).1
    have hhi := wf_hi_le w7.wf w7.stop q hq
    rw [w7.start] at hlo
    -- it is enough to look at the heights inside the piece
    suffices hin : ∀ y, q.lo < y → y ≤ q.hi → Near eps (ra + rb) y a b by
      have hcl := (near_closed (eps := eps) (w := ra + rb) ha hb).closure_subset_iff.2 (show Set.Ioc q.lo q.hi ⊆ _ from fun y hy => hin y hy.1 hy.2)
      rw [closure_Ioc hst.ne] at hcl
      exact hcl ⟨q1, q2⟩
    intro y y1 y2
    have ys : max a.start.y b.start.y < y := lt_of_le_of_lt hlo y1
    have yE : y ≤ min a.stop.y b.stop.y := y2.trans hhi
    have hat : (compareNew solve eps (eps / 2) eps a b).orderAt y = some .ish :=
      (C08_order_at _ w7.wf y (by rw [w7.start]; exact ys) .ish).2 ⟨q, hq, y1, y2, ho⟩
    have find : ∀ o : Order, o ≠ .ish → ∃ p ∈ w.iter, p.order ≠ o ∧ ∃ u, max a.start.y b.start.y ≤ u ∧ u ≤ min a.stop.y b.stop.y ∧ p.lo ≤ u ∧ u ≤ p.hi ∧ |u - y| ≤ eps := by
      intro o hoo
      obtain ⟨c', k1, k2⟩ := C10_slop_meaning (fun x => x - eps) (fun x => x + eps) hdown (fun x => (hup x).le) mdown mup w o2 _ o4 y (by rw [o3]; exact ys) yE o hoo
      have e : c' = compareNew solve eps (eps / 2) eps a b := by rw [w6] at k1; exact (Option.some.inj k1).symm
      subst e
      rw [hat, Option.some.injEq] at k2
      by_contra hn
      push Not at hn
      refine absurd (k2.2 ?_) (fun h => hoo h.symm)
      intro p hp _ _ g3 g4
      by_contra hpo
      have h1 := o2.2.lo_le p hp
      have h2 := wf_hi_le o2 o4 p hp
      rw [o3] at h1
      rcases le_total y p.lo with h | h
      · have := hn p hp hpo p.lo h1.1 (h1.2.trans h2) le_rfl h1.2
        rw [abs_of_nonneg (by linarith)] at this
        linarith
      rcases le_total p.hi y with h' | h'
      · have := hn p hp hpo p.hi (h1.1.trans h1.2) h2 h1.2 le_rfl
        rw [abs_of_nonpos (by linarith)] at this
        linarith
      · have := hn p hp hpo y ys.le yE h h'
        rw [sub_self, abs_zero] at this
        linarith
    obtain ⟨p1, hp1, n1, u1, a1, b1, c1, d1, e1⟩ := find .left (by simp)
    obtain ⟨p2, hp2, n2, u2, a2, b2, c2, d2, e2⟩ := find .right (by simp)
    have viaIsh : ∀ p ∈ w.iter, p.order = .ish → ∀ u, max a.start.y b.start.y ≤ u → u ≤ min a.stop.y b.stop.y → p.lo ≤ u → u ≤ p.hi → |u - y| ≤ eps →
        Near eps (ra + rb) y a b := by
      intro p hp hpo u k1 k2 k3 k4 k5
      obtain ⟨y0, y1, m1, m2, m3, m4, m5⟩ := (o5 p hp u k1 k2 k3 k4).2.2 hpo
      refine ⟨y0, y1, m1, m2, ?_, ?_, m5⟩ <;> rw [abs_le] at * <;> constructor <;> linarith
    cases h1 : p1.order with
    | left => exact absurd h1 n1
    | ish => exact viaIsh p1 hp1 h1 u1 a1 b1 c1 d1 e1
    | right =>
      cases h2 : p2.order with
      | right => exact absurd h2 n2
      | ish => exact viaIsh p2 hp2 h2 u2 a2 b2 c2 d2 e2
      | left =>
        have g1 := (o5 p1 hp1 u1 a1 b1 c1 d1).2.1 h1
        have g2 := (o5 p2 hp2 u2 a2 b2 c2 d2).1 h2
        obtain ⟨v, v1, v2, v3⟩ := curves_cross ha hb (u := u2) (v := u1) a2 b2 a1 b1 (by linarith) (by linarith)
        have l1 : max a.start.y b.start.y ≤ v := (le_min a2 a1).trans v1
        have l2 : v ≤ min a.stop.y b.stop.y := v2.trans (max_le b2 b1)
        have l3 : |v - y| ≤ 2 * eps := by
          rw [abs_le] at *
          rcases min_choice u2 u1 with m | m <;> rcases max_choice u2 u1 with m' | m' <;> rw [m] at v1 <;> rw [m'] at v2 <;> constructor <;> linarith
        refine ⟨v, v, ⟨(le_max_left _ _).trans l1, l2.trans (min_le_left _ _)⟩, ⟨(le_max_right _ _).trans l1, l2.trans (min_le_right _ _)⟩, l3, l3, ?_⟩
        rw [v3, sub_self, abs_zero]; linarith

/-- If `b` is between `a` and `c`, which are near each other, then `b` is near one of them. -/
theorem near_between (he : 0 < eps) {a b c : Geom.Seg} (ha : a.Down) (hc : c.Down) {ra rb rc t : ℝ} (ra0 : 0 ≤ ra) (rb0 : 0 ≤ rb) (rc0 : 0 ≤ rc)
    (ta : a.start.y ≤ t ∧ t ≤ a.stop.y) (tb : b.start.y ≤ t ∧ t ≤ b.stop.y) (tc : c.start.y ≤ t ∧ t ≤ c.stop.y) (hab : a.atY t ≤ b.atY t) (hbc : b.atY t ≤ c.atY t)
    (h : Near eps (ra + rc) t a c) : Near eps (ra + rb) t a b ∨ Near eps (rb + rc) t b c := by
  obtain ⟨y0, y1, h1, h2, h3, h4, h5⟩ := h
  have ht : |t - t| ≤ 2 * eps := by rw [sub_self, abs_zero]; linarith
  have mid : ∀ {v w : ℝ}, |v - t| ≤ 2 * eps → min t v ≤ w → w ≤ max t v → |w - t| ≤ 2 * eps := by
    intro v w k1 k2 k3
    rw [abs_le] at *
    rcases min_choice t v with m | m <;> rcases max_choice t v with m' | m' <;> rw [m] at k2 <;> rw [m'] at k3 <;> constructor <;> linarith
  rw [abs_le] at h5
  rcases le_total (b.atY t) (a.atY y0) with g | g
  · obtain ⟨w, w1, w2, w3⟩ := curve_reaches ha ta.1 ta.2 h1.1 h1.2 hab g
    left
    exact ⟨w, t, ⟨(le_min ta.1 h1.1).trans w1, w2.trans (max_le ta.2 h1.2)⟩, tb, mid h3 w1 w2, ht, by rw [w3, sub_self, abs_zero]; linarith⟩
  · rcases le_total (c.atY y1) (b.atY t) with g' | g'
    · obtain ⟨w, w1, w2, w3⟩ := curve_reaches hc h2.1 h2.2 tc.1 tc.2 g' hbc
      right
      rw [min_comm] at w1
      rw [max_comm] at w2
      exact ⟨t, w, tb, ⟨(le_min tc.1 h2.1).trans w1, w2.trans (max_le tc.2 h2.2)⟩, ht, mid h4 w1 w2, by rw [w3, sub_self, abs_zero]; linarith⟩
    · by_cases hs : b.atY t - a.atY y0 ≤ 3 / 2 * eps + (ra + rb)
      · left
        exact ⟨y0, t, h1, tb, h3, ht, by rw [abs_le]; constructor <;> linarith⟩
      · right
        refine ⟨t, y1, tb, h2, ht, h4, ?_⟩
        rw [abs_le]; constructor <;> linarith [h5.1, h5.2]

/-- Both directions of the comparison tell segments apart that are clearly apart somewhere. -/
theorem curves_resolved (hsolve : Geom.FindsRoots solve) (he : 0 < eps) {a b : Geom.Seg} (ha : a.Down) (hb : b.Down) {ra rb : ℝ} (ga : Gentle eps ra a)
    (gb : Gentle eps rb b) (hU : Geom.Upright (eps / 2) a.toCubic b.toCubic) (hU' : Geom.Upright (eps / 2) b.toCubic a.toCubic) (hS : Cleared eps (ra + rb) a b)
    (hn : ¬ LeftOf b a) :
    (compareNew solve eps (eps / 2) eps a b).orderAfter (max a.start.y b.start.y) = some .left ∧
    (compareNew solve eps (eps / 2) eps b a).orderAfter (max a.start.y b.start.y) = some .right := by
  have ra0 := ga.1
  have rb0 := gb.1
  have hov : max a.start.y b.start.y ≤ min a.stop.y b.stop.y := by
    rcases hS with ⟨y, h1, h2, _⟩ | ⟨h, _⟩
    · linarith
    · exact h.le
  have hov' : max b.start.y a.start.y ≤ min b.stop.y a.stop.y := by rw [max_comm, min_comm]; exact hov
  obtain ⟨out, o1, o2, o3, o4, o5⟩ := curves_out hsolve he ha hb ga gb hU hov
  obtain ⟨out', o1', o2', o3', o4', o5'⟩ := curves_out hsolve he hb ha gb ga hU' hov'
  obtain ⟨w, w1, -, -, -, -, w6, w7⟩ := compareNew_spec hsolve (by linarith : 0 < eps / 2) (by linarith : eps / 2 ≤ eps) he ha hb hov
  obtain ⟨w', w1', -, -, -, -, w6', w7'⟩ := compareNew_spec hsolve (by linarith : 0 < eps / 2) (by linarith : eps / 2 ≤ eps) he hb ha hov'
  obtain rfl := w1.unique o1
  obtain rfl := w1'.unique o1'
  have hs1 : (compareNew solve eps (eps / 2) eps a b).start = max a.start.y b.start.y := w7.start
  have hs2 : (compareNew solve eps (eps / 2) eps b a).start = max a.start.y b.start.y := by rw [w7'.start, max_comm]
  -- no piece says the opposite
  have no1 : ∀ p ∈ (compareNew solve eps (eps / 2) eps a b).iter, p.order ≠ .ish → p.order = .left := by
    intro p hp ho
    cases h : p.order with
    | left => rfl
    | ish => exact absurd h ho
    | right =>
      exfalso
      have h1 := w7.wf.2.lo_le p hp
      have h2 := wf_hi_le w7.wf w7.stop p hp
      rw [hs1] at h1
      have h3 := h1.2.trans h2
      exact hn ⟨p.lo, ⟨(le_max_right _ _).trans h1.1, h3.trans (min_le_right _ _)⟩, ⟨(le_max_left _ _).trans h1.1, h3.trans (min_le_left _ _)⟩,
        (w7.right p hp p.lo le_rfl h1.2).2 h⟩
  have no2 : ∀ p ∈ (compareNew solve eps (eps / 2) eps b a).iter, p.order ≠ .ish → p.order = .right := by
    intro p hp ho
    cases h : p.order with
    | right => rfl
    | ish => exact absurd h ho
    | left =>
      exfalso
      have h1 := w7'.wf.2.lo_le p hp
      have h2 := wf_hi_le w7'.wf w7'.stop p hp
      rw [hs2] at h1
      have h3 := h1.2.trans h2
      exact hn ⟨p.lo, ⟨(le_max_right _ _).trans h1.1, h3.trans (min_le_left _ _)⟩, ⟨(le_max_left _ _).trans h1.1, h3.trans (min_le_right _ _)⟩,
        (w7'.right p hp p.lo le_rfl h1.2).1 h⟩
  rcases hS with ⟨y, hy1, hy2, hF⟩ | ⟨heq, hlt⟩
  · have hdown : ∀ x : ℝ, (fun x => x - eps) x ≤ x := fun x => by dsimp only; linarith
    have hup : ∀ x : ℝ, x ≤ (fun x => x + eps) x := fun x => by dsimp only; linarith
    have mdown : ∀ x y : ℝ, x ≤ y → (fun x => x - eps) x ≤ (fun x => x - eps) y := fun x y h => by dsimp only; linarith
    have mup : ∀ x y : ℝ, x ≤ y → (fun x => x + eps) x ≤ (fun x => x + eps) y := fun x y h => by dsimp only; linarith
    -- a height of the piece near `y`
    have near : ∀ p : Piece ℝ, max a.start.y b.start.y ≤ p.lo → p.lo ≤ p.hi → p.hi ≤ min a.stop.y b.stop.y → y ≤ p.hi + eps → p.lo - eps < y →
        ∃ t, max a.start.y b.start.y ≤ t ∧ t ≤ min a.stop.y b.stop.y ∧ p.lo ≤ t ∧ t ≤ p.hi ∧ |t - y| ≤ eps := by
      intro p l1 l2 l3 l4 l5
      rcases le_total y p.lo with h | h
      · exact ⟨p.lo, l1, l2.trans l3, le_rfl, l2, by rw [abs_of_nonneg (by linarith)]; linarith⟩
      rcases le_total p.hi y with h' | h'
      · exact ⟨p.hi, l1.trans l2, l3, l2, le_rfl, by rw [abs_of_nonpos (by linarith)]; linarith⟩
      · exact ⟨y, hy1.le, hy2, h, h', by simp [he.le]⟩
    have wide : ∀ {u v : ℝ}, |u - v| ≤ eps → |v - y| ≤ eps → |u - y| ≤ 2 * eps := by
      intro u v h1 h2
      rw [abs_le] at *
      constructor <;> linarith
    constructor
    · obtain ⟨c', k1, k2⟩ := C10_slop_meaning (fun x => x - eps) (fun x => x + eps) hdown hup mdown mup w o2 _ o4 y (by rw [o3]; exact hy1) hy2 .left (by simp)
      have e : c' = compareNew solve eps (eps / 2) eps a b := by rw [w6] at k1; exact (Option.some.inj k1).symm
      subst e
      rw [← hs1]
      refine orderAfter_definite (by simp) w7.stop w7.wf (by rw [hs1]; exact hy1) hy2 (k2.2 ?_) no1
      intro p hp _ _ g3 g4
      have h1 := o2.2.lo_le p hp
      have h2 := wf_hi_le o2 o4 p hp
      rw [o3] at h1
      obtain ⟨t, t1, t2, t3, t4, t5⟩ := near p h1.1 h1.2 h2 g3 g4
      obtain ⟨q1, q2, q3⟩ := o5 p hp t t1 t2 t3 t4
      cases h : p.order with
      | left => rfl
      | right =>
        exfalso
        have := hF t t ((le_max_left _ _).trans t1) (t2.trans (min_le_left _ _)) ((le_max_right _ _).trans t1) (t2.trans (min_le_right _ _)) (by linarith) (by linarith)
        have := q2 h
        linarith
      | ish =>
        exfalso
        obtain ⟨y0, y1, c1, c2, c3, c4, c5⟩ := q3 h
        have := hF y0 y1 c1.1 c1.2 c2.1 c2.2 (wide c3 t5) (wide c4 t5)
        have := (abs_le.1 c5).2
        linarith
    · obtain ⟨c', k1, k2⟩ := C10_slop_meaning (fun x => x - eps) (fun x => x + eps) hdown hup mdown mup w' o2' _ o4' y (by rw [o3', max_comm]; exact hy1)
        (by rw [min_comm]; exact hy2) .right (by simp)
      have e : c' = compareNew solve eps (eps / 2) eps b a := by rw [w6'] at k1; exact (Option.some.inj k1).symm
      subst e
      rw [← hs2]
      refine orderAfter_definite (by simp) w7'.stop w7'.wf (by rw [hs2]; exact hy1) (by rw [min_comm]; exact hy2) (k2.2 ?_) no2
      intro p hp _ _ g3 g4
      have h1 := o2'.2.lo_le p hp
      have h2 := wf_hi_le o2' o4' p hp
      rw [o3', max_comm] at h1
      rw [min_comm] at h2
      obtain ⟨t, t1, t2, t3, t4, t5⟩ := near p h1.1 h1.2 h2 g3 g4
      obtain ⟨q1, q2, q3⟩ := o5' p hp t (by rw [max_comm]; exact t1) (by rw [min_comm]; exact t2) t3 t4
      cases h : p.order with
      | right => rfl
      | left =>
        exfalso
        have := hF t t ((le_max_left _ _).trans t1) (t2.trans (min_le_left _ _)) ((le_max_right _ _).trans t1) (t2.trans (min_le_right _ _)) (by linarith) (by linarith)
        have := q1 h
        linarith
      | ish =>
        exfalso
        obtain ⟨y0, y1, c1, c2, c3, c4, c5⟩ := q3 h
        have := hF y1 y0 c2.1 c2.2 c1.1 c1.2 (wide c4 t5) (wide c3 t5)
        have := (abs_le.1 c5).1
        linarith
  · have one : ∀ {c : CurveOrder ℝ} {y : ℝ} {o : Order}, c.withYSlop false (· - eps) (· + eps) = some (compareNew solve eps (eps / 2) eps a b) ∨
        c.withYSlop false (· - eps) (· + eps) = some (compareNew solve eps (eps / 2) eps b a) → c = ⟨y, [⟨y, o⟩]⟩ →
        c.withYSlop false (· - eps) (· + eps) = some c ∧ c.orderAfter y = some o := by
      rintro c y o - rfl
      simp [CurveOrder.withYSlop, CurveOrder.orderAfter]
    have e1 := touch_out ha hb heq o1
    have e2 := touch_out hb ha (by rw [max_comm, min_comm]; exact heq) o1'
    rw [← heq] at e1
    rw [max_comm, min_comm, ← heq] at e2
    obtain ⟨k1, k2⟩ := one (Or.inl w6) e1
    obtain ⟨k1', k2'⟩ := one (Or.inr w6') e2
    rw [w6] at k1
    rw [w6'] at k1'
    rw [Option.some.inj k1, Option.some.inj k1', k2, k2']
    unfold Geom.tolOrder
    rw [if_pos (by linarith), if_neg (by linarith), if_pos (by linarith)]
    exact ⟨rfl, rfl⟩

/-! ## General position -/

variable {T : Type} {s : Segments ℝ} {tags : List T} {cfg : Cfg} {ρ : Nat → ℝ}

/-- The comparison tells peaceful segments apart. -/
theorem calm_of_peaceful (h : Arena s tags) (he : 0 < cfg.eps) (hsolve : Geom.FindsRoots cfg.solve) (hL : LooseCurves cfg.eps ρ s) {i j : Nat} (hi : Slanted s i)
    (hj : Slanted s j) (hp : Peaceful cfg.eps (ρ i + ρ j) (segAt s i) (segAt s j)) : Calm cfg s i j := by
  have key : ∀ {i j : Nat}, Slanted s i → Slanted s j →
      (LeftOf (segAt s i) (segAt s j) → ¬ LeftOf (segAt s j) (segAt s i) ∧ Cleared cfg.eps (ρ i + ρ j) (segAt s i) (segAt s j)) → Parted cfg s i j := by
    intro i j hi hj hp hl
    obtain ⟨h1, h2⟩ := curves_resolved hsolve he (hi.down h) (hj.down h) (hL.gentle i hi) (hL.gentle j hj) (hL.upright i j hi hj) (hL.upright j i hj hi) (hp hl).2 (hp hl).1
    refine ⟨(hp hl).1, ?_⟩
    change (compare cfg.solve cfg.eps (cfg.eps / 2) cfg.eps cfg.first (segAt s) i j).orderAfter _ = _
    unfold compare
    split
    · exact h1
    · rw [C09_flip_order_after, h2]; rfl
  exact ⟨key hi hj hp.1, key hj hi (by rw [add_comm]; exact hp.2)⟩

/-- Where segments are not told apart they are near each other. -/
theorem blurred_near (h : Arena s tags) (he : 0 < cfg.eps) (hsolve : Geom.FindsRoots cfg.solve) (hf : OneFirst cfg.first) (hL : LooseCurves cfg.eps ρ s) {i j : Nat}
    {t : ℝ} (hne : i ≠ j) (hB : Blurred cfg s t i j) : Near cfg.eps (ρ i + ρ j) t (segAt s i) (segAt s j) := by
  obtain ⟨hi, hj, n1, n2⟩ := hB
  have hc := compare_spec hsolve (by linarith : 0 < cfg.eps / 2) (by linarith : cfg.eps / 2 ≤ cfg.eps) he cfg.first (segAt s) i j (hi.1.down h) (hj.1.down h)
    ((max_le hi.2.1 hj.2.1).trans (le_min hi.2.2 hj.2.2))
  change Compared _ _ ((env cfg s).cmp i j) at hc
  unfold Told at n1 n2
  rw [compare_flip hf hne] at n2
  push Not at n1 n2
  obtain ⟨p, hp, p1, p2, p3⟩ := n1
  obtain ⟨p', hp', q1, q2, q3⟩ := n2
  rw [Sweep.iter_flip] at hp'
  obtain ⟨q, hq, rfl⟩ := List.mem_map.1 hp'
  dsimp only at q1 q2 q3
  have q3' : q.order ≠ .right := fun h0 => q3 (by rw [h0]; rfl)
  obtain ⟨r, hr, r1, r2, r3⟩ : ∃ r ∈ ((env cfg s).cmp i j).iter, r.lo ≤ t ∧ t ≤ r.hi ∧ r.order = .ish := by
    cases h1 : p.order with
    | left => exact absurd h1 p3
    | ish => exact ⟨p, hp, p1, p2, h1⟩
    | right =>
      cases h2 : q.order with
      | right => exact absurd h2 q3'
      | ish => exact ⟨q, hq, q1, q2, h2⟩
      | left =>
        have g1 := (hc.right p hp t p1 p2).2 h1
        have g2 := (hc.right q hq t q1 q2).1 h2
        exact absurd (g1.trans g2) (lt_irrefl _)
  change r ∈ (compare cfg.solve cfg.eps (cfg.eps / 2) cfg.eps cfg.first (segAt s) i j).iter at hr
  unfold compare at hr
  by_cases hfi : cfg.first i j = true
  · rw [if_pos hfi] at hr
    exact ish_near hsolve he (hi.1.down h) (hj.1.down h) (hL.gentle i hi.1) (hL.gentle j hj.1) (hL.upright i j hi.1 hj.1) hi.2 hj.2 hr r3 r1 r2
  · rw [if_neg hfi, Sweep.iter_flip] at hr
    obtain ⟨q, hq, rfl⟩ := List.mem_map.1 hr
    rw [add_comm]
    exact (ish_near hsolve he (hj.1.down h) (hi.1.down h) (hL.gentle j hj.1) (hL.gentle i hi.1) (hL.upright j i hj.1 hi.1) hj.2 hi.2 hq (Sweep.Order.flip_ish.1 r3) r1 r2).symm

theorem general_of_curves (h : Arena s tags) (he : 0 < cfg.eps) (hsolve : Geom.FindsRoots cfg.solve) (hf : OneFirst cfg.first) (hL : LooseCurves cfg.eps ρ s) :
    General cfg s := by
  have hK := env_comparable (cfg := cfg) h he hsolve
  have near : ∀ {i j t}, i ≠ j → Blurred cfg s t i j → Near cfg.eps (ρ i + ρ j) t (segAt s i) (segAt s j) := fun hne hB => blurred_near h he hsolve hf hL hne hB
  have loud : ∀ {i j}, Slanted s i → Slanted s j → ¬ Calm cfg s i j → ¬ Peaceful cfg.eps (ρ i + ρ j) (segAt s i) (segAt s j) := fun hi hj hw hq =>
    hw (calm_of_peaceful h he hsolve hL hi hj hq)
  have chain : ∀ {t a b}, Has s t a → Has s t b → Cluster cfg s t a b → NearChain cfg.eps ρ s t a b := by
    intro t a b ha hb hab
    have := Sweep.linked_chain hK (M := fun a b => Near cfg.eps (ρ a + ρ b) t (segAt s a) (segAt s b)) (fun _ _ h => by rw [add_comm]; exact h.symm)
      (fun a b ha hb hne hn => near hne (blurred_of_near h ((on_iff h).1 ha) ((on_iff h).1 hb) hn))
      (fun a x c h1 h2 h3 => by
        have sa := ((on_iff h).1 h1.1).1
        have sx := ((on_iff h).1 h1.2.1).1
        have sc := ((on_iff h).1 h2.2.1).1
        exact near_between he (sa.down h) (sc.down h) (hL.gentle a sa).1 (hL.gentle x sx).1 (hL.gentle c sc).1 h1.1.2 h1.2.1.2 h2.2.1.2 (hK.sure_lt h1).le
          (hK.sure_lt h2).le h3) ((on_iff h).2 ha) ((on_iff h).2 hb) ((linked_iff h).2 hab)
    refine Relation.ReflTransGen.mono (fun a b hab => ?_) _ _ this
    rw [on_iff h, on_iff h] at hab
    exact hab
  refine ⟨?_, ?_⟩
  · intro i j k t hne hi hj hw h1 h2
    have hq := loud hi.1 hj.1 hw
    have hc := chain hi hj h1
    have hk : Has s t k := by
      rcases Relation.ReflTransGen.cases_tail h2.1 with h0 | ⟨x, _, h0⟩
      · rw [h0]; exact hi
      · exact h0.2.1
    refine pair_chain ?_ ?_ (chain hi hk h2)
    · rintro x ⟨_, hx, hm⟩
      exact hL.alone i j x t hne hi hj hx hq hc hm
    · rintro x ⟨_, hx, hm⟩
      exact (hL.alone j i x t hne.symm hj hi hx (fun h => hq (by rw [add_comm]; exact h.symm)) hc.symm hm).symm
  · intro i j t hne hw hv b
    exact hL.ends i j t hne (loud b.1.1 b.2.1.1 hw) hv b.1 b.2.1 (near hne b)

theorem OffCurves.away (he : 0 < cfg.eps) (hρ : ∀ i, Slanted s i → 0 ≤ ρ i) {x z : ℝ} (h : OffCurves cfg.eps ρ s x z) : Away cfg s x z := by
  intro a ha h1 h2
  have hs : Slanted s a := ⟨ha, lt_of_le_of_lt h1 h2⟩
  have := hρ a hs
  rcases h a ⟨hs, h1, h2.le⟩ with g | g
  · left; intro y hy k1 k2; linarith [g y (by linarith) k1 k2]
  · right; intro y hy k1 k2; linarith [g y (by linarith) k1 k2]

theorem OffCurves.beside (h : Arena s tags) (he : 0 < cfg.eps) (hsolve : Geom.FindsRoots cfg.solve) (hf : OneFirst cfg.first) (hL : LooseCurves cfg.eps ρ s) {x z : ℝ}
    (ho : OffCurves cfg.eps ρ s x z) : Beside cfg s x z := by
  intro i j hne _ hB hlt
  have hz : |z - z| ≤ 2 * cfg.eps := by rw [sub_self, abs_zero]; linarith
  have ri := (hL.gentle i hB.1.1).1
  have rj := (hL.gentle j hB.2.1.1).1
  obtain ⟨y0, y1, h1, h2, h3, h4, h5⟩ := blurred_near h he hsolve hf hL hne hB
  rw [abs_le] at h5
  rcases ho i hB.1 with g | g
  · rcases ho j hB.2.1 with g' | g'
    · have := g' z hz hB.2.1.2.1 hB.2.1.2.2
      linarith
    · have k1 := g y0 h3 h1.1 h1.2
      have k2 := g' y1 h4 h2.1 h2.2
      linarith
  · have := g z hz hB.1.2.1 hB.1.2.2
    linarith

/-- C87: a boolean operation on paths with curves, in general position, returns, and what it returns is right. -/
theorem C87_curves {a b : List (PathEl ℝ)} {tags : List Bool} (he : 0 < cfg.eps) (hpp : Searches cfg.pp) (hsolve : Geom.FindsRoots cfg.solve)
    (hf : OneFirst cfg.first) (hb : buildPaths (tagged a b) = .ok s tags) (hL : LooseCurves cfg.eps ρ s) (rule : FillRule) (op : Op) :
    ∃ N t' cs, (∀ fuel, N ≤ fuel → binaryOp cfg a b rule op fuel = .ok s t' cs) ∧ ∀ x z, OffCurves cfg.eps ρ s x z →
      (Combine op (InShape rule (windPath a x z)) (InShape rule (windPath b x z)) → windContours s t' cs x z = 1) ∧
      (¬ Combine op (InShape rule (windPath a x z)) (InShape rule (windPath b x z)) → windContours s t' cs x z = 0) := by
  have ha := buildPaths_arena hb
  obtain ⟨N, t', cs, h1, h2⟩ := C81_paths he hpp hsolve hf hb (general_of_curves ha he hsolve hf hL) rule op
  refine ⟨N, t', cs, h1, fun x z hx => ?_⟩
  exact h2 x z (hx.away he fun i hi => (hL.gentle i hi).1) (hx.beside ha he hsolve hf hL)

end Verif.Full
