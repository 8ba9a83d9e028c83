import Verif.Geom.ITwist
import Mathlib.Tactic.Positivity

/-! Lemmas for `intersect_cubics` (no claims): the rotated comparison. -/

namespace Verif.Geom
open Verif.Curve Filter

theorem sqrt2_sq : Real.sqrt 2 * Real.sqrt 2 = 2 := Real.mul_self_sqrt (by norm_num)
theorem sqrt2_pos : 0 < Real.sqrt 2 := Real.sqrt_pos.2 (by norm_num)

/-- The definite orders are right. -/
def XQ (c0 c1 : Cubic) : Order → ℝ → Prop
  | .left, y => solveX c0 y < solveX c1 y
  | .right, y => solveX c1 y < solveX c0 y
  | .ish, _ => True

theorem XQ_ex (c0 c1 : Cubic) (t : ℝ) : XQ c0 c1 .left t → XQ c0 c1 .right t → False := fun a b => lt_asymm a b

theorem rotC_eval (s : ℝ) (z : Pt) (c : Cubic) (t : ℝ) : (rotC s z c).eval t = rotPt s z (c.eval t) := by
  ext <;> simp only [rotC, rotPt, Cubic.eval, bez3] <;> ring

theorem rotPt_back {s : ℝ} (hs : s * s = 1) (z p : Pt) : rotPt (-s) z (rotPt s z p) = p := by
  have h2 := sqrt2_sq
  ext
  · simp only [rotPt]
    linear_combination (p.x - z.x) / 4 * h2 + s * s * (p.x - z.x) / 4 * h2 + (p.x - z.x) / 2 * hs
  · simp only [rotPt]
    linear_combination (p.y - z.y) / 4 * h2 + s * s * (p.y - z.y) / 4 * h2 + (p.y - z.y) / 2 * hs

/-- The derivative along the direction that becomes vertical. -/
theorem rotC_derivAt (s : ℝ) (z : Pt) (c : Cubic) (t : ℝ) :
    ((rotC s z c).derivAt t).y = Real.sqrt 2 / 2 * (s * (c.derivAt t).x + (c.derivAt t).y) ∧
    ((rotC s z c).derivAt t).x = Real.sqrt 2 / 2 * ((c.derivAt t).x - s * (c.derivAt t).y) := by
  constructor <;> simp only [rotC, rotPt, Cubic.derivAt, Cubic.deriv, bez2] <;> ring

theorem ctrl_mono {c : Cubic} (h : c.CtrlMono) (hlt : c.p0.y < c.p3.y) : c.Mono := by
  refine ⟨hlt, fun t t0 t1 => ?_⟩
  simp only [Cubic.CtrlMono, not_or, not_lt] at h
  simp only [Cubic.derivAt, Cubic.deriv, bez2]
  have a := mul_nonneg (mul_nonneg (sub_nonneg.2 t1) (sub_nonneg.2 t1)) (sub_nonneg.2 h.1)
  have b := mul_nonneg (mul_nonneg t0 (sub_nonneg.2 t1)) (sub_nonneg.2 h.2.1)
  have d := mul_nonneg (mul_nonneg t0 t0) (sub_nonneg.2 h.2.2)
  linarith

/-- The heights of a curve before and after the rotation. -/
theorem rot_inv {d : Cubic} (hd : d.Mono) {s : ℝ} (hs : s * s = 1) (z : Pt) (hr : (rotC s z d).Mono) :
    Inv d.p0.y d.p3.y (fun y => (rotPt s z ⟨solveX d y, y⟩).y) (fun v => (rotPt (-s) z ⟨solveX (rotC s z d) v, v⟩).y) ∧
    (rotPt s z ⟨solveX d d.p0.y, d.p0.y⟩).y = (rotC s z d).p0.y ∧ (rotPt s z ⟨solveX d d.p3.y, d.p3.y⟩).y = (rotC s z d).p3.y := by
  have e0 : solveX d d.p0.y = d.p0.x := by
    have := solveX_eval hd (t := 0) le_rfl zero_le_one
    rwa [Cubic.eval_zero] at this
  have e3 : solveX d d.p3.y = d.p3.x := by
    have := solveX_eval hd (t := 1) zero_le_one le_rfl
    rwa [Cubic.eval_one] at this
  have g0 : (rotPt s z ⟨solveX d d.p0.y, d.p0.y⟩).y = (rotC s z d).p0.y := by rw [e0]; rfl
  have g3 : (rotPt s z ⟨solveX d d.p3.y, d.p3.y⟩).y = (rotC s z d).p3.y := by rw [e3]; rfl
  refine ⟨⟨fun a b ha hab hb => ?_, fun v v0 v1 => ?_⟩, g0, g3⟩
  · rw [← eval_solveT ha (hab.le.trans hb), ← eval_solveT (ha.trans hab.le) hb, ← rotC_eval, ← rotC_eval]
    exact hr.strict (solveT_spec ha (hab.le.trans hb)).1 (hd.solveT_lt ha hab hb) (solveT_spec (ha.trans hab.le) hb).2.1
  · rw [g0] at v0
    rw [g3] at v1
    obtain ⟨t0, t1, te⟩ := solveT_spec v0 v1
    have hk : rotPt (-s) z ⟨solveX (rotC s z d) v, v⟩ = d.eval (solveT (rotC s z d) v) := by
      rw [← eval_solveT v0 v1, rotC_eval, rotPt_back hs]
    rw [hk]
    refine ⟨?_, ?_, ?_⟩
    · have := hd.mono le_rfl t0 t1; rwa [Cubic.eval_zero] at this
    · have := hd.mono t0 t1 le_rfl; rwa [Cubic.eval_one] at this
    · rw [solveX_eval hd t0 t1]
      have : (rotPt s z (d.eval (solveT (rotC s z d) v))).y = v := by rw [← rotC_eval, te]
      exact this

section
variable {solve : ℝ → ℝ → ℝ → ℝ → List ℝ} {tol acc : ℝ}

/-- The condition under which curves are compared after a rotation. -/
def RotCond (s : ℝ) (d0 d1 : Cubic) (h : ℝ) : Prop :=
  (s = 1 ∨ s = -1) ∧ h * 16 ≤ s * (d0.p3.x - d0.p0.x) ∧ h * 16 ≤ s * (d1.p3.x - d1.p0.x)

theorem withRotation_ok (htol : 0 < tol) {d0 d1 : Cubic} (h0 : d0.Mono) (h1 : d1.Mono) {y0 y1 : ℝ} (e00 : d0.p0.y = y0) (e03 : d0.p3.y = y1)
    (e10 : d1.p0.y = y0) (e13 : d1.p3.y = y1) {Q : Order → ℝ → Prop} (hex : ∀ t, Q .left t → Q .right t → False)
    (hQ : ∀ o t, y0 ≤ t → t ≤ y1 → (XQ d0 d1 o t ↔ Q o t))
    (hgo : ∀ s z, RotCond s d0 d1 (y1 - y0) → (rotC s z d0).Mono → (rotC s z d1).Mono → max (rotC s z d0).p0.y (rotC s z d1).p0.y < min (rotC s z d0).p3.y (rotC s z d1).p3.y →
      Ok solve tol acc (XQ (rotC s z d0) (rotC s z d1)) (rotC s z d0) (rotC s z d1) (max (rotC s z d0).p0.y (rotC s z d1).p0.y)
        (min (rotC s z d0).p3.y (rotC s z d1).p3.y)) :
    ∀ᶠ n in atTop, ∀ S out, Grow Q S y0 out →
      withRotation (intersectRec solve tol acc n) tol d0 d1 y0 y1 out = none ∨
      ∃ out', withRotation (intersectRec solve tol acc n) tol d0 d1 y0 y1 out = some (some out') ∧ Done Q S y1 out' := by
  have hlt : y0 < y1 := by rw [← e00, ← e03]; exact h0.1
  by_cases hA : |d0.p3.x - d0.p0.x| < (y1 - y0) * 16 ∨ |d1.p3.x - d1.p0.x| < (y1 - y0) * 16
  · exact Eventually.of_forall fun n S out _ => Or.inl (by simp only [withRotation, if_pos hA])
  by_cases hB : ¬ (0 < d0.p3.x - d0.p0.x ↔ 0 < d1.p3.x - d1.p0.x)
  · exact Eventually.of_forall fun n S out _ => Or.inl (by simp only [withRotation, if_neg hA, if_pos hB])
  obtain ⟨z, hz⟩ : ∃ z : Pt, z = ⟨(d0.p0.x + d0.p3.x) / 2, (y0 + y1) / 2⟩ := ⟨_, rfl⟩
  obtain ⟨s, hs⟩ : ∃ s : ℝ, s = @ite ℝ (0 < d0.p3.x - d0.p0.x) (Classical.propDecidable _) 1 (-1) := ⟨_, rfl⟩
  by_cases hC : ¬ (rotC s z d0).CtrlMono
  · refine Eventually.of_forall fun n S out _ => Or.inl ?_
    simp only [withRotation, if_neg hA, if_neg hB, ← hz, ← hs]
    simp only [rotated, if_pos hC]
  by_cases hD : ¬ (rotC s z d1).CtrlMono
  · refine Eventually.of_forall fun n S out _ => Or.inl ?_
    simp only [withRotation, if_neg hA, if_neg hB, ← hz, ← hs]
    simp only [rotated, if_neg hC, if_pos hD]
  have hC' := not_not.1 hC
  have hD' := not_not.1 hD
  have hs1 : s = 1 ∨ s = -1 := by rw [hs]; split <;> simp
  have hss : s * s = 1 := by rcases hs1 with h | h <;> rw [h] <;> norm_num
  simp only [not_or, not_lt] at hA
  have hB' := not_not.1 hB
  have hcond : RotCond s d0 d1 (y1 - y0) := by
    refine ⟨hs1, ?_⟩
    by_cases hp : 0 < d0.p3.x - d0.p0.x
    · have hp' := hB'.1 hp
      have : s = 1 := by rw [hs, if_pos hp]
      rw [abs_of_pos hp, abs_of_pos hp'] at hA
      rw [this]; constructor <;> linarith [hA.1, hA.2]
    · have hp' : ¬ 0 < d1.p3.x - d1.p0.x := fun h => hp (hB'.2 h)
      have : s = -1 := by rw [hs, if_neg hp]
      rw [abs_of_nonpos (not_lt.1 hp), abs_of_nonpos (not_lt.1 hp')] at hA
      rw [this]; constructor <;> linarith [hA.1, hA.2]
  have s2 := sqrt2_pos
  have up : ∀ d : Cubic, d.p0.y = y0 → d.p3.y = y1 → (y1 - y0) * 16 ≤ s * (d.p3.x - d.p0.x) → (rotC s z d).p0.y < (rotC s z d).p3.y := by
    intro d a b c
    simp only [rotC, rotPt, a, b]
    have : 0 < Real.sqrt 2 * (s * (d.p3.x - d.p0.x) + (y1 - y0)) := mul_pos s2 (by linarith)
    linarith
  have m0 := ctrl_mono hC' (up d0 e00 e03 hcond.2.1)
  have m1 := ctrl_mono hD' (up d1 e10 e13 hcond.2.2)
  obtain ⟨i0, a0, b0⟩ := rot_inv h0 hss z m0
  obtain ⟨i1, a1, b1⟩ := rot_inv h1 hss z m1
  rw [e00, e03] at i0
  rw [e10, e13] at i1
  rw [e00] at a0
  rw [e03] at b0
  rw [e10] at a1
  rw [e13] at b1
  obtain ⟨r0, hr0⟩ : ∃ r, r = rotC s z d0 := ⟨_, rfl⟩
  obtain ⟨r1, hr1⟩ : ∃ r, r = rotC s z d1 := ⟨_, rfl⟩
  rw [← hr0] at hC i0 a0 b0 m0
  rw [← hr1] at hD i1 a1 b1 m1
  obtain ⟨g0, hg0⟩ : ∃ g : ℝ → ℝ, g = fun y => (rotPt s z ⟨solveX d0 y, y⟩).y := ⟨_, rfl⟩
  obtain ⟨g1, hg1⟩ : ∃ g : ℝ → ℝ, g = fun y => (rotPt s z ⟨solveX d1 y, y⟩).y := ⟨_, rfl⟩
  obtain ⟨k0, hk0⟩ : ∃ g : ℝ → ℝ, g = fun v => (rotPt (-s) z ⟨solveX r0 v, v⟩).y := ⟨_, rfl⟩
  obtain ⟨k1, hk1⟩ : ∃ g : ℝ → ℝ, g = fun v => (rotPt (-s) z ⟨solveX r1 v, v⟩).y := ⟨_, rfl⟩
  rw [← hg0, ← hk0] at i0
  rw [← hg1, ← hk1] at i1
  have a0 : g0 y0 = r0.p0.y := by rw [hg0]; exact a0
  have b0 : g0 y1 = r0.p3.y := by rw [hg0]; exact b0
  have a1 : g1 y0 = r1.p0.y := by rw [hg1]; exact a1
  have b1 : g1 y1 = r1.p3.y := by rw [hg1]; exact b1
  have hgd : ∀ y, g1 y - g0 y = s * (Real.sqrt 2 / 2) * (solveX d1 y - solveX d0 y) := by
    intro y; rw [hg0, hg1]; simp only [rotPt]; ring
  have hkd : ∀ v, k0 v - k1 v = s * (Real.sqrt 2 / 2) * (solveX r1 v - solveX r0 v) := by
    intro v; rw [hk0, hk1]; simp only [rotPt]; ring
  have hH : ∀ v, (rotPt (-s) z ⟨(solveX r0 v + solveX r1 v) / 2, v⟩).y = (k0 v + k1 v) / 2 := by
    intro v; rw [hk0, hk1]; simp only [rotPt]; ring
  by_cases hE : min r0.p3.y r1.p3.y ≤ max r0.p0.y r1.p0.y
  · -- the rotated curves are one after the other
    refine Eventually.of_forall fun n S out hg => Or.inr ?_
    simp only [withRotation, if_neg (not_or.2 ⟨not_lt.2 hA.1, not_lt.2 hA.2⟩), if_neg hB, ← hz, ← hs]
    simp only [rotated]
    rw [if_neg (show ¬ ¬ (rotC s z d0).CtrlMono from hr0 ▸ hC), if_neg (show ¬ ¬ (rotC s z d1).CtrlMono from hr1 ▸ hD), if_pos (by rw [← hr0, ← hr1]; exact hE)]
    obtain ⟨out', k1, k2⟩ := grow_push (o := tolOrder d0.p0.x d1.p0.x tol) hex hg hlt.le fun t ht0 ht1 => by
      rw [← hQ _ _ ht0 ht1]
      have x0 : solveX d0 y0 = d0.p0.x := by
        have := solveX_eval h0 (t := 0) le_rfl zero_le_one
        rwa [Cubic.eval_zero, e00] at this
      have x1 : solveX d1 y0 = d1.p0.x := by
        have := solveX_eval h1 (t := 0) le_rfl zero_le_one
        rwa [Cubic.eval_zero, e10] at this
      -- the curve that starts first also ends before the other starts
      have key : (g0 y0 < g1 y0 → g0 t < g1 t) ∧ (g1 y0 < g0 y0 → g1 t < g0 t) := by
        have u0 := i0.le ht0 ht1 le_rfl
        have u1 := i1.le ht0 ht1 le_rfl
        have w0 := i0.le le_rfl ht0 ht1
        have w1 := i1.le le_rfl ht0 ht1
        have v0 := i0.lt y0 y1 le_rfl hlt le_rfl
        have v1 := i1.lt y0 y1 le_rfl hlt le_rfl
        rw [← a0, ← b0, ← a1, ← b1] at hE
        have strict0 : g0 t < g0 y1 ∨ g1 y0 < g1 t := by
          rcases eq_or_lt_of_le ht1 with e | e
          · right; rw [e]; exact v1
          · left; exact i0.lt t y1 ht0 e le_rfl
        have strict1 : g1 t < g1 y1 ∨ g0 y0 < g0 t := by
          rcases eq_or_lt_of_le ht1 with e | e
          · right; rw [e]; exact v0
          · left; exact i1.lt t y1 ht0 e le_rfl
        constructor
        · intro hl
          rw [max_eq_right hl.le] at hE
          rcases min_le_iff.1 hE with h | h
          · rcases strict0 with q | q <;> linarith
          · linarith
        · intro hl
          rw [max_eq_left hl.le] at hE
          rcases min_le_iff.1 hE with h | h
          · linarith
          · rcases strict1 with q | q <;> linarith
      have hgt := hgd t
      have hg0' := hgd y0
      rw [x0, x1] at hg0'
      unfold tolOrder
      split
      · next hlt' =>
        show solveX d0 t < solveX d1 t
        rcases hs1 with e | e
        · rw [e] at hgt hg0'
          have : 0 < Real.sqrt 2 * (d1.p0.x - d0.p0.x) := mul_pos s2 (by linarith)
          have := key.1 (by linarith)
          have : 0 < Real.sqrt 2 * (solveX d1 t - solveX d0 t) := by linarith
          have := pos_of_mul_pos_right this s2.le
          linarith
        · rw [e] at hgt hg0'
          have : 0 < Real.sqrt 2 * (d1.p0.x - d0.p0.x) := mul_pos s2 (by linarith)
          have := key.2 (by linarith)
          have : 0 < Real.sqrt 2 * (solveX d1 t - solveX d0 t) := by linarith
          have := pos_of_mul_pos_right this s2.le
          linarith
      · split
        · next hlt' =>
          show solveX d1 t < solveX d0 t
          rcases hs1 with e | e
          · rw [e] at hgt hg0'
            have : 0 < Real.sqrt 2 * (d0.p0.x - d1.p0.x) := mul_pos s2 (by linarith)
            have := key.2 (by linarith)
            have : 0 < Real.sqrt 2 * (solveX d0 t - solveX d1 t) := by linarith
            have := pos_of_mul_pos_right this s2.le
            linarith
          · rw [e] at hgt hg0'
            have : 0 < Real.sqrt 2 * (d0.p0.x - d1.p0.x) := mul_pos s2 (by linarith)
            have := key.1 (by linarith)
            have : 0 < Real.sqrt 2 * (solveX d0 t - solveX d1 t) := by linarith
            have := pos_of_mul_pos_right this s2.le
            linarith
        · trivial
    exact ⟨out', by rw [k1], k2⟩
  · have hE' := not_le.1 hE
    obtain ⟨z0, hz0⟩ : ∃ x, x = max r0.p0.y r1.p0.y := ⟨_, rfl⟩
    obtain ⟨z1, hz1⟩ : ∃ x, x = min r0.p3.y r1.p3.y := ⟨_, rfl⟩
    have hgo' := hgo s z hcond (by rw [← hr0]; exact m0) (by rw [← hr1]; exact m1)
    rw [← hr0, ← hr1] at hgo'
    have hgo'' := hgo' hE'
    rw [← hz0, ← hz1] at hE' hgo''
    filter_upwards [hgo''] with n hn S out hg
    right
    simp only [withRotation, if_neg (not_or.2 ⟨not_lt.2 hA.1, not_lt.2 hA.2⟩), if_neg hB, ← hz, ← hs]
    simp only [rotated]
    rw [if_neg (show ¬ ¬ (rotC s z d0).CtrlMono from hr0 ▸ hC), if_neg (show ¬ ¬ (rotC s z d1).CtrlMono from hr1 ▸ hD), if_neg (by rw [← hr0, ← hr1]; exact hE)]
    rw [← hr0, ← hr1, ← hz0, ← hz1]
    obtain ⟨ord, o1, o2⟩ := hn z0 (CurveOrder.new z0) (Or.inr ⟨rfl, rfl, rfl⟩)
    rw [o1]
    dsimp only
    have hcons := cons_of_wf o2.1 o2.2.2.1
    rw [o2.2.1] at hcons
    have hne : ord.iter ≠ [] := by rw [CurveOrder.iter, Ne, pieces_eq_nil]; exact o2.1.1
    rw [← a0, ← a1] at hz0
    rw [← b0, ← b1] at hz1
    have z0a : g0 y0 ≤ z0 := by rw [hz0]; exact le_max_left _ _
    have z0b : g1 y0 ≤ z0 := by rw [hz0]; exact le_max_right _ _
    have z1a : z1 ≤ g0 y1 := by rw [hz1]; exact min_le_left _ _
    have z1b : z1 ≤ g1 y1 := by rw [hz1]; exact min_le_right _ _
    -- in both directions of rotation
    have main : ∀ {ga gb ka kb : ℝ → ℝ}, Inv y0 y1 ga ka → Inv y0 y1 gb kb → z0 = max (ga y0) (gb y0) → z1 = min (ga y1) (gb y1) →
        (∀ o t, y0 ≤ t → t ≤ y1 → (TQ ga gb o t ↔ Q o t)) → (∀ o v, XQ r0 r1 o v → TQ' ka kb o v) →
        (∀ v, (rotPt (-s) z ⟨(solveX r0 v + solveX r1 v) / 2, v⟩).y = (ka v + kb v) / 2) →
        ∃ out', (match transfer r0 r1 s z y0 y1 out ord.iter with | none => some none | some out => some (setLast out y1)) = some (some out') ∧ Done Q S y1 out' := by
      intro ga gb ka kb ia ib hza hzb hq hq' hHH
      have za0 : ga y0 ≤ z0 := by rw [hza]; exact le_max_left _ _
      have zb0 : gb y0 ≤ z0 := by rw [hza]; exact le_max_right _ _
      have za1 : z1 ≤ ga y1 := by rw [hzb]; exact min_le_left _ _
      have zb1 : z1 ≤ gb y1 := by rw [hzb]; exact min_le_right _ _
      have rz0 := ia.inv z0 za0 (hE'.le.trans za1)
      have rz0' := ib.inv z0 zb0 (hE'.le.trans zb1)
      have rz1 := ia.inv z1 (za0.trans hE'.le) za1
      have rz1' := ib.inv z1 (zb0.trans hE'.le) zb1
      obtain ⟨o3, t1, t2⟩ := transfer_ok (S := S) (out := out) (lo := z0) (cur := y0) hex (fun o t q0 q1 => (hq o t q0 q1).1) ia ib hza hzb (fun v _ _ => hHH v) ord.iter hne le_rfl hcons
        (fun p hp v v0 v1 => hq' _ _ (o2.2.2.2.2 p hp v ((hcons.mem p hp).1.trans v0) v0 v1))
        (fun o y q0 q1 ho => by
          cases o with
          | ish => trivial
          | left => exact twist_start hlt.le ia ib hza (hE'.le.trans za1) (hE'.le.trans zb1) q0 q1 ho
          | right => exact twist_start hlt.le ib ia (by rw [max_comm]; exact hza) (hE'.le.trans zb1) (hE'.le.trans za1) q0 (by linarith) ho)
        le_rfl (by linarith [rz0.1, rz0'.1]) hg
      obtain ⟨o4, t3, t4⟩ := setLast_done t2 (y := y1) (by linarith [rz1.2.1, rz1'.2.1]) fun o t ho q0 q1 => by
        rw [← hq _ _ (by linarith [rz1.1, rz1'.1]) (by linarith [rz1.2.1, rz1'.2.1])] at ho
        rw [← hq _ _ (by linarith [rz1.1, rz1'.1]) q1]
        cases o with
        | ish => trivial
        | left => exact twist_end hlt.le ia ib hzb (za0.trans hE'.le) (zb0.trans hE'.le) q0 q1 ho
        | right =>
          have hcm : (kb z1 + ka z1) / 2 = (ka z1 + kb z1) / 2 := by ring
          exact twist_end hlt.le ib ia (by rw [min_comm]; exact hzb) (zb0.trans hE'.le) (za0.trans hE'.le) (by rw [hcm]; exact q0) q1 (by rw [hcm]; exact ho)
      refine ⟨o4, ?_, t4⟩
      rw [t1]
      dsimp only
      rw [t3]
    rcases hs1 with e | e
    · rw [e] at hgd hkd
      refine main i0 i1 hz0 hz1 (fun o t q0 q1 => ?_) (fun o v ho => ?_) hH
      · rw [← hQ o t q0 q1]
        have hd := hgd t
        cases o with
        | ish => exact Iff.rfl
        | left =>
          show g0 t < g1 t ↔ solveX d0 t < solveX d1 t
          constructor
          · intro h
            have : 0 < Real.sqrt 2 * (solveX d1 t - solveX d0 t) := by linarith
            have := pos_of_mul_pos_right this s2.le
            linarith
          · intro h
            have := mul_pos s2 (sub_pos.2 h)
            linarith
        | right =>
          show g1 t < g0 t ↔ solveX d1 t < solveX d0 t
          constructor
          · intro h
            have : 0 < Real.sqrt 2 * (solveX d0 t - solveX d1 t) := by linarith
            have := pos_of_mul_pos_right this s2.le
            linarith
          · intro h
            have := mul_pos s2 (sub_pos.2 h)
            linarith
      · have hd := hkd v
        cases o with
        | ish => trivial
        | left =>
          have := mul_pos s2 (sub_pos.2 (show solveX r0 v < solveX r1 v from ho))
          show k1 v < k0 v
          linarith
        | right =>
          have := mul_pos s2 (sub_pos.2 (show solveX r1 v < solveX r0 v from ho))
          show k0 v < k1 v
          linarith
    · rw [e] at hgd hkd
      refine main i1 i0 (by rw [max_comm]; exact hz0) (by rw [min_comm]; exact hz1) (fun o t q0 q1 => ?_) (fun o v ho => ?_) (fun v => by rw [hH v]; ring)
      · rw [← hQ o t q0 q1]
        have hd := hgd t
        cases o with
        | ish => exact Iff.rfl
        | left =>
          show g1 t < g0 t ↔ solveX d0 t < solveX d1 t
          constructor
          · intro h
            have : 0 < Real.sqrt 2 * (solveX d1 t - solveX d0 t) := by linarith
            have := pos_of_mul_pos_right this s2.le
            linarith
          · intro h
            have := mul_pos s2 (sub_pos.2 h)
            linarith
        | right =>
          show g0 t < g1 t ↔ solveX d1 t < solveX d0 t
          constructor
          · intro h
            have : 0 < Real.sqrt 2 * (solveX d0 t - solveX d1 t) := by linarith
            have := pos_of_mul_pos_right this s2.le
            linarith
          · intro h
            have := mul_pos s2 (sub_pos.2 h)
            linarith
      · have hd := hkd v
        cases o with
        | ish => trivial
        | left =>
          have := mul_pos s2 (sub_pos.2 (show solveX r0 v < solveX r1 v from ho))
          show k0 v < k1 v
          linarith
        | right =>
          have := mul_pos s2 (sub_pos.2 (show solveX r1 v < solveX r0 v from ho))
          show k1 v < k0 v
          linarith

end

end Verif.Geom
