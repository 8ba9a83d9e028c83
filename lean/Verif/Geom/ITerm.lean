import Verif.Geom.IRot

/-! Lemmas for `intersect_cubics` (no claims): the recursion ends. -/

namespace Verif.Geom
open Verif.Curve Filter

/-- The curve also rises in the direction turned by `s` times 45 degrees. -/
def Cubic.TMono (s : ℝ) (c : Cubic) : Prop := ∀ t, 0 ≤ t → t ≤ 1 → 0 ≤ s * (c.derivAt t).x + (c.derivAt t).y

/-- `√2` times the rise of a part in the turned direction. -/
noncomputable def ext (s : ℝ) (c : Cubic) (u v : ℝ) : ℝ := s * (solveX c v - solveX c u) + (v - u)

theorem tmono_le {s : ℝ} {c : Cubic} (h : c.TMono s) (hm : c.Mono) {u v : ℝ} (hs : c.Spans u v) : 0 ≤ ext s c u v := by
  obtain ⟨a, b, d⟩ := hs
  have hd : ∀ t, HasDerivAt (fun t => s * (c.eval t).x + (c.eval t).y) (s * (c.derivAt t).x + (c.derivAt t).y) t := fun t =>
    ((c.hasDeriv_x t).const_mul s).add (c.hasDeriv_y t)
  obtain ⟨p, q, e⟩ := solveT_spec a (b.trans d)
  obtain ⟨p', q', e'⟩ := solveT_spec (a.trans b) d
  have := mono_of_deriv (a := 0) (b := 1) hd h p (hm.solveT_le a b d) q'
  rw [eval_solveT a (b.trans d), eval_solveT (a.trans b) d] at this
  dsimp only at this
  unfold ext
  linarith

theorem ext_sub {s : ℝ} {c : Cubic} (h : c.TMono s) (hm : c.Mono) {y0 y1 u v : ℝ} (hs : c.Spans y0 y1) (h0 : y0 ≤ u) (h1 : u ≤ v) (h2 : v ≤ y1) :
    ext s c u v ≤ ext s c y0 y1 := by
  have a := tmono_le h hm (hs.sub le_rfl h0 (h1.trans h2))
  have b := tmono_le h hm (hs.sub (h0.trans h1) h2 le_rfl)
  unfold ext at *
  linarith

section
variable {solve : ℝ → ℝ → ℝ → ℝ → List ℝ} {tol acc : ℝ} (hsolve : FindsRoots solve) (hacc : 0 < acc) (hat : acc ≤ tol)
include hsolve hacc hat

/-- One step, for the claim about definite orders. -/
theorem stepX {c0 c1 : Cubic} (h0 : c0.Mono) (h1 : c1.Mono) {y0 y1 : ℝ} (s0 : c0.Spans y0 y1) (s1 : c1.Spans y0 y1)
    (hgo : acc ≤ y1 - y0 → ∀ s z, RotCond s (ySubsegment c0 y0 y1) (ySubsegment c1 y0 y1) (y1 - y0) → (rotC s z (ySubsegment c0 y0 y1)).Mono →
      (rotC s z (ySubsegment c1 y0 y1)).Mono →
      max (rotC s z (ySubsegment c0 y0 y1)).p0.y (rotC s z (ySubsegment c1 y0 y1)).p0.y < min (rotC s z (ySubsegment c0 y0 y1)).p3.y (rotC s z (ySubsegment c1 y0 y1)).p3.y →
      Ok solve tol acc (XQ (rotC s z (ySubsegment c0 y0 y1)) (rotC s z (ySubsegment c1 y0 y1))) (rotC s z (ySubsegment c0 y0 y1)) (rotC s z (ySubsegment c1 y0 y1))
        (max (rotC s z (ySubsegment c0 y0 y1)).p0.y (rotC s z (ySubsegment c1 y0 y1)).p0.y)
        (min (rotC s z (ySubsegment c0 y0 y1)).p3.y (rotC s z (ySubsegment c1 y0 y1)).p3.y))
    (hsub : ¬ (y1 - y0 ≤ acc) → ∀ u v, y0 ≤ u → u ≤ v → v ≤ y1 → v - u ≤ (y1 - y0) / 2 → Ok solve tol acc (XQ c0 c1) c0 c1 u v) :
    Ok solve tol acc (XQ c0 c1) c0 c1 y0 y1 := by
  have htol : 0 < tol := hacc.trans_le hat
  refine step_ok (XQ_ex c0 c1) hsolve htol h0 h1 s0 s1 (fun t _ _ h => ?_) (fun t _ _ h => ?_) (fun _ _ _ _ => trivial) (fun _ _ _ _ _ => trivial)
    (fun _ _ _ _ => trivial) (fun ha => ?_) hacc (fun h _ => hsub h)
  · show solveX c0 t < solveX c1 t; linarith
  · show solveX c1 t < solveX c0 t; linarith
  · have hlt : y0 < y1 := by linarith
    refine withRotation_ok htol (ysub_mono h0 s0 hlt) (ysub_mono h1 s1 hlt) rfl rfl rfl rfl (XQ_ex c0 c1) (fun o t ht0 ht1 => ?_) (hgo ha)
    cases o <;> simp only [XQ, ysub_solveX h0 s0 hlt ht0 ht1, ysub_solveX h1 s1 hlt ht0 ht1]

theorem stateB (k : ℕ) : ∀ b : Bool, ∀ (s : ℝ) (c0 c1 : Cubic) (y0 y1 E : ℝ), (s = 1 ∨ s = -1) → c0.Mono → c1.Mono → c0.TMono s → c1.TMono s →
    c0.Spans y0 y1 → c1.Spans y0 y1 → ext s c0 y0 y1 ≤ Real.sqrt 2 * E → ext s c1 y0 y1 ≤ Real.sqrt 2 * E →
    (y1 - y0) * max E acc < acc * acc * 2 ^ k → (b = true ∨ E < 12 * (y1 - y0)) → Ok solve tol acc (XQ c0 c1) c0 c1 y0 y1 := by
  have s2 := sqrt2_pos
  have s22 := sqrt2_sq
  have s217 : 12 * Real.sqrt 2 ≤ 17 := by
    by_contra hc
    have hc := not_le.1 hc
    have := mul_lt_mul'' hc hc (by norm_num) (by norm_num)
    linarith
  induction k with
  | zero =>
    intro b s c0 c1 y0 y1 E hs h0 h1 t0 t1 p0 p1 e0 e1 hM _
    have hlt : y1 - y0 < acc := by
      by_contra hc
      have hc := not_lt.1 hc
      have := mul_le_mul hc (le_max_right E acc) hacc.le (by linarith)
      rw [pow_zero, mul_one] at hM
      linarith
    refine stepX hsolve hacc hat h0 h1 p0 p1 (fun h => ?_) (fun h => ?_) <;> linarith
  | succ k ih =>
    -- first without rotations
    have nonrot : ∀ (b : Bool), (b = true → ∀ (s : ℝ) (c0 c1 : Cubic) (y0 y1 E : ℝ), (s = 1 ∨ s = -1) → c0.Mono → c1.Mono → c0.TMono s → c1.TMono s →
        c0.Spans y0 y1 → c1.Spans y0 y1 → ext s c0 y0 y1 ≤ Real.sqrt 2 * E → ext s c1 y0 y1 ≤ Real.sqrt 2 * E →
        (y1 - y0) * max E acc < acc * acc * 2 ^ (k + 1) → E < 12 * (y1 - y0) → Ok solve tol acc (XQ c0 c1) c0 c1 y0 y1) →
        ∀ (s : ℝ) (c0 c1 : Cubic) (y0 y1 E : ℝ), (s = 1 ∨ s = -1) → c0.Mono → c1.Mono → c0.TMono s → c1.TMono s →
        c0.Spans y0 y1 → c1.Spans y0 y1 → ext s c0 y0 y1 ≤ Real.sqrt 2 * E → ext s c1 y0 y1 ≤ Real.sqrt 2 * E →
        (y1 - y0) * max E acc < acc * acc * 2 ^ (k + 1) → (b = true ∨ E < 12 * (y1 - y0)) → Ok solve tol acc (XQ c0 c1) c0 c1 y0 y1 := by
      intro b hb s c0 c1 y0 y1 E hs h0 h1 t0 t1 p0 p1 e0 e1 hM hF
      have hE0 : 0 ≤ E := by
        have := (tmono_le t0 h0 p0).trans e0
        exact nonneg_of_mul_nonneg_right this s2
      have hmax : 0 < max E acc := lt_max_of_lt_right hacc
      have hMle : (y1 - y0) * E ≤ (y1 - y0) * max E acc := mul_le_mul_of_nonneg_left (le_max_left _ _) (by linarith [p0.2.1])
      refine stepX hsolve hacc hat h0 h1 p0 p1 (fun ha s' z hc m0 m1 hlt => ?_) (fun hb u v hu huv hv huv2 => ?_)
      · -- a rotation
        have hy : y0 < y1 := by linarith
        have w0 := tmono_le t0 h0 p0
        have cs0 := hc.2.1
        rw [sub_p0, sub_p3] at cs0
        dsimp only at cs0
        have hss : s' = s := by
          unfold ext at w0
          rcases hc.1 with e | e <;> rcases hs with e' | e' <;> rw [e, e'] <;> rw [e] at cs0 <;> rw [e'] at w0
          · linarith
          · linarith
        subst hss
        have hs1 : s' * s' = 1 := by rcases hs with e | e <;> rw [e] <;> norm_num
        have k0 : 17 * (y1 - y0) ≤ Real.sqrt 2 * E := by
          refine le_trans ?_ e0
          unfold ext; linarith
        have k1 : 12 * (y1 - y0) ≤ E := by
          have := mul_le_mul_of_nonneg_right s217 hE0
          linarith
        have hbt : b = true := by
          rcases hF with h | h
          · exact h
          · linarith
        obtain ⟨d0, hd0⟩ : ∃ d, d = ySubsegment c0 y0 y1 := ⟨_, rfl⟩
        obtain ⟨d1, hd1⟩ : ∃ d, d = ySubsegment c1 y0 y1 := ⟨_, rfl⟩
        have dm0 := ysub_mono h0 p0 hy
        have dm1 := ysub_mono h1 p1 hy
        have q00 : d0.p0.y = y0 := by rw [hd0]; rfl
        have q03 : d0.p3.y = y1 := by rw [hd0]; rfl
        have q10 : d1.p0.y = y0 := by rw [hd1]; rfl
        have q13 : d1.p3.y = y1 := by rw [hd1]; rfl
        have rise : (rotC s' z (ySubsegment c0 y0 y1)).p3.y - (rotC s' z (ySubsegment c0 y0 y1)).p0.y = Real.sqrt 2 / 2 * ext s' c0 y0 y1 := by
          simp only [rotC, rotPt, sub_p0, sub_p3, ext]; ring
        rw [← hd0, ← hd1] at hlt ⊢
        rw [← hd0] at m0 dm0 rise
        rw [← hd1] at m1 dm1
        obtain ⟨i0, a0, b0⟩ := rot_inv dm0 hs1 z m0
        obtain ⟨i1, a1, b1⟩ := rot_inv dm1 hs1 z m1
        rw [q00, q03] at i0
        rw [q10, q13] at i1
        rw [q00] at a0
        rw [q03] at b0
        rw [q10] at a1
        rw [q13] at b1
        obtain ⟨z0, hz0⟩ : ∃ x, x = max (rotC s' z d0).p0.y (rotC s' z d1).p0.y := ⟨_, rfl⟩
        obtain ⟨z1, hz1⟩ : ∃ x, x = min (rotC s' z d0).p3.y (rotC s' z d1).p3.y := ⟨_, rfl⟩
        rw [← hz0, ← hz1] at hlt ⊢
        have sp0 : (rotC s' z d0).Spans z0 z1 := ⟨by rw [hz0]; exact le_max_left _ _, hlt.le, by rw [hz1]; exact min_le_left _ _⟩
        have sp1 : (rotC s' z d1).Spans z0 z1 := ⟨by rw [hz0]; exact le_max_right _ _, hlt.le, by rw [hz1]; exact min_le_right _ _⟩
        have tm : ∀ d : Cubic, d.Mono → (rotC s' z d).TMono (-s') := by
          intro d hd t ht0 ht1
          obtain ⟨r1, r2⟩ := rotC_derivAt s' z d t
          rw [r1, r2]
          have : -s' * (Real.sqrt 2 / 2 * ((d.derivAt t).x - s' * (d.derivAt t).y)) + Real.sqrt 2 / 2 * (s' * (d.derivAt t).x + (d.derivAt t).y) =
              Real.sqrt 2 * (d.derivAt t).y := by linear_combination Real.sqrt 2 / 2 * (d.derivAt t).y * hs1
          rw [this]
          exact mul_nonneg s2.le (hd.2 t ht0 ht1)
        have bound : ∀ d : Cubic, Inv y0 y1 (fun y => (rotPt s' z ⟨solveX d y, y⟩).y) (fun v => (rotPt (-s') z ⟨solveX (rotC s' z d) v, v⟩).y) →
            (rotPt s' z ⟨solveX d y0, y0⟩).y = (rotC s' z d).p0.y → (rotPt s' z ⟨solveX d y1, y1⟩).y = (rotC s' z d).p3.y → (rotC s' z d).Spans z0 z1 →
            ext (-s') (rotC s' z d) z0 z1 ≤ Real.sqrt 2 * (y1 - y0) := by
          intro d i a b sp
          obtain ⟨_, u2, _⟩ := i.inv z1 (by rw [a]; exact sp.1.trans hlt.le) (by rw [b]; exact sp.2.2)
          obtain ⟨v1, _, _⟩ := i.inv z0 (by rw [a]; exact sp.1) (by rw [b]; exact hlt.le.trans sp.2.2)
          have he : ext (-s') (rotC s' z d) z0 z1 = Real.sqrt 2 * ((rotPt (-s') z ⟨solveX (rotC s' z d) z1, z1⟩).y - (rotPt (-s') z ⟨solveX (rotC s' z d) z0, z0⟩).y) := by
            simp only [ext, rotPt]
            linear_combination -(1 / 2) * (-s' * (solveX (rotC s' z d) z1 - solveX (rotC s' z d) z0) + (z1 - z0)) * s22
          rw [he]
          exact mul_le_mul_of_nonneg_left (by linarith) s2.le
        have hzE : z1 - z0 ≤ E := by
          have : z1 - z0 ≤ Real.sqrt 2 / 2 * ext s' c0 y0 y1 := by rw [← rise]; linarith [sp0.1, sp0.2.2]
          have h3 := mul_le_mul_of_nonneg_left e0 (show 0 ≤ Real.sqrt 2 / 2 by positivity)
          have : Real.sqrt 2 / 2 * (Real.sqrt 2 * E) = E := by linear_combination E / 2 * s22
          linarith
        have hmx : max (y1 - y0) acc = y1 - y0 := max_eq_left ha
        have hprod : (z1 - z0) * (y1 - y0) ≤ E * (y1 - y0) := mul_le_mul_of_nonneg_right hzE (by linarith)
        have hs' : -s' = 1 ∨ -s' = -1 := by rcases hs with e | e <;> rw [e] <;> norm_num
        by_cases hf : y1 - y0 < 12 * (z1 - z0)
        · exact hb hbt (-s') _ _ z0 z1 (y1 - y0) hs' m0 m1 (tm d0 dm0) (tm d1 dm1) sp0 sp1 (bound d0 i0 a0 b0 sp0) (bound d1 i1 a1 b1 sp1)
            (by rw [hmx]; linarith) hf
        · refine ih true (-s') _ _ z0 z1 (y1 - y0) hs' m0 m1 (tm d0 dm0) (tm d1 dm1) sp0 sp1 (bound d0 i0 a0 b0 sp0) (bound d1 i1 a1 b1 sp1) ?_ (Or.inl rfl)
          rw [hmx]
          have r1 : 12 * ((z1 - z0) * (y1 - y0)) ≤ (y1 - y0) * (y1 - y0) := by
            have := mul_le_mul_of_nonneg_right (not_lt.1 hf) (show 0 ≤ y1 - y0 by linarith); linarith
          have r2 : 12 * ((y1 - y0) * (y1 - y0)) ≤ E * (y1 - y0) := by
            have := mul_le_mul_of_nonneg_right k1 (show 0 ≤ y1 - y0 by linarith); linarith
          have r3 : 0 ≤ (z1 - z0) * (y1 - y0) := mul_nonneg (by linarith) (by linarith)
          rw [pow_succ] at hM
          linarith
      · refine ih true s c0 c1 u v E hs h0 h1 t0 t1 (p0.sub hu huv hv) (p1.sub hu huv hv) ((ext_sub t0 h0 p0 hu huv hv).trans e0)
          ((ext_sub t1 h1 p1 hu huv hv).trans e1) ?_ (Or.inl rfl)
        have := mul_le_mul_of_nonneg_right huv2 hmax.le
        rw [pow_succ] at hM
        linarith
    have f0 := nonrot false (fun h => absurd h (by simp))
    intro b
    cases b with
    | false => exact f0
    | true => exact nonrot true fun _ s c0 c1 y0 y1 E a1 a2 a3 a4 a5 a6 a7 a8 a9 a10 a11 => f0 s c0 c1 y0 y1 E a1 a2 a3 a4 a5 a6 a7 a8 a9 a10 (Or.inr a11)

theorem intersect_ok (j : ℕ) : ∀ {c0 c1 : Cubic}, c0.Mono → c1.Mono → ∀ {y0 y1 : ℝ}, c0.Spans y0 y1 → c1.Spans y0 y1 → y1 - y0 < acc * 2 ^ j →
    Ok solve tol acc (XQ c0 c1) c0 c1 y0 y1 := by
  have s2 := sqrt2_pos
  have s22 := sqrt2_sq
  induction j with
  | zero =>
    intro c0 c1 h0 h1 y0 y1 p0 p1 hj
    rw [pow_zero, mul_one] at hj
    exact stepX hsolve hacc hat h0 h1 p0 p1 (fun h => by linarith) (fun h => by linarith)
  | succ j ih =>
    intro c0 c1 h0 h1 y0 y1 p0 p1 hj
    refine stepX hsolve hacc hat h0 h1 p0 p1 (fun ha s z hc m0 m1 hlt => ?_) (fun hb u v hu huv hv huv2 => ?_)
    · have hy : y0 < y1 := by linarith
      have hs1 : s * s = 1 := by rcases hc.1 with e | e <;> rw [e] <;> norm_num
      have dm0 := ysub_mono h0 p0 hy
      have dm1 := ysub_mono h1 p1 hy
      have tm : ∀ d : Cubic, d.Mono → (rotC s z d).TMono (-s) := by
        intro d hd t ht0 ht1
        obtain ⟨r1, r2⟩ := rotC_derivAt s z d t
        rw [r1, r2]
        have : -s * (Real.sqrt 2 / 2 * ((d.derivAt t).x - s * (d.derivAt t).y)) + Real.sqrt 2 / 2 * (s * (d.derivAt t).x + (d.derivAt t).y) =
            Real.sqrt 2 * (d.derivAt t).y := by linear_combination Real.sqrt 2 / 2 * (d.derivAt t).y * hs1
        rw [this]
        exact mul_nonneg s2.le (hd.2 t ht0 ht1)
      obtain ⟨r0, hr0⟩ : ∃ r, r = rotC s z (ySubsegment c0 y0 y1) := ⟨_, rfl⟩
      obtain ⟨r1, hr1⟩ : ∃ r, r = rotC s z (ySubsegment c1 y0 y1) := ⟨_, rfl⟩
      have tm0 := tm _ dm0
      have tm1 := tm _ dm1
      rw [← hr0] at m0 tm0 hlt ⊢
      rw [← hr1] at m1 tm1 hlt ⊢
      obtain ⟨z0, hz0⟩ : ∃ x, x = max r0.p0.y r1.p0.y := ⟨_, rfl⟩
      obtain ⟨z1, hz1⟩ : ∃ x, x = min r0.p3.y r1.p3.y := ⟨_, rfl⟩
      rw [← hz0, ← hz1] at hlt ⊢
      have sp0 : r0.Spans z0 z1 := ⟨by rw [hz0]; exact le_max_left _ _, hlt.le, by rw [hz1]; exact min_le_left _ _⟩
      have sp1 : r1.Spans z0 z1 := ⟨by rw [hz0]; exact le_max_right _ _, hlt.le, by rw [hz1]; exact min_le_right _ _⟩
      obtain ⟨E, hE⟩ : ∃ E, E = max (ext (-s) r0 z0 z1) (ext (-s) r1 z0 z1) / Real.sqrt 2 := ⟨_, rfl⟩
      have hE' : Real.sqrt 2 * E = max (ext (-s) r0 z0 z1) (ext (-s) r1 z0 z1) := by rw [hE]; field_simp
      have hs' : -s = 1 ∨ -s = -1 := by rcases hc.1 with e | e <;> rw [e] <;> norm_num
      obtain ⟨k, hk⟩ : ∃ k : ℕ, (z1 - z0) * max E acc / (acc * acc) < 2 ^ k := pow_unbounded_of_one_lt _ (by norm_num)
      rw [div_lt_iff₀ (by positivity)] at hk
      exact stateB hsolve hacc hat k true (-s) r0 r1 z0 z1 E hs' m0 m1 tm0 tm1 sp0 sp1 (by rw [hE']; exact le_max_left _ _) (by rw [hE']; exact le_max_right _ _)
        (by linarith) (Or.inl rfl)
    · refine ih h0 h1 (p0.sub hu huv hv) (p1.sub hu huv hv) ?_
      rw [pow_succ] at hj
      linarith

end

end Verif.Geom
