import Verif.Pos.Group

/-!
# The points drawn by a path, and the order of the quadratics in the strips of a group
-/

namespace Verif.Pos
open Verif.Curve Verif.Geom Verif.Scan

/-- The points of an element that begins at `p`. -/
def El.trace (p : Pt) : El → Set Pt
  | .line q => {r | ∃ t : ℝ, 0 ≤ t ∧ t ≤ 1 ∧ r = p.affine q t}
  | .quad a q => {r | ∃ t : ℝ, 0 ≤ t ∧ t ≤ 1 ∧ r = (Quad.mk p a q).eval t}
  | .curve a b q => {r | ∃ t : ℝ, 0 ≤ t ∧ t ≤ 1 ∧ r = (Cubic.mk p a b q).eval t}

/-- The points of a path that begins at `p`. -/
def trace (p : Pt) : List El → Set Pt
  | [] => ∅
  | e :: es => e.trace p ∪ trace e.stop es

theorem bez2_zero (a b c : ℝ) : bez2 a b c 0 = a := by unfold bez2; ring
theorem bez2_one (a b c : ℝ) : bez2 a b c 1 = c := by unfold bez2; ring

theorem bez2_mono {a b c a' b' c' t : ℝ} (t0 : 0 ≤ t) (t1 : t ≤ 1) (ha : a ≤ a') (hb : b ≤ b') (hc : c ≤ c') : bez2 a b c t ≤ bez2 a' b' c' t := by
  unfold bez2
  have h1 : 0 ≤ 1 - t := by linarith
  have e1 := mul_le_mul_of_nonneg_left ha (sq_nonneg (1 - t))
  have e2 := mul_le_mul_of_nonneg_left hb (mul_nonneg (mul_nonneg (by norm_num : (0:ℝ) ≤ 2) h1) t0)
  have e3 := mul_le_mul_of_nonneg_left hc (sq_nonneg t)
  linarith

/-- In a strip the height of a quadratic is linear in the parameter. -/
theorem strip_eval (s : Strip) (o : Nat) (x t : ℝ) :
    (Quad.mk ⟨x, s.lo⟩ ⟨s.xm o, (s.lo + s.hi) / 2⟩ ⟨s.x1 o, s.hi⟩).eval t = ⟨bez2 x (s.xm o) (s.x1 o) t, s.lo + t * (s.hi - s.lo)⟩ := by
  ext
  · rfl
  · simp only [Quad.eval, bez2]; ring

theorem strip_trace (s : Strip) (o : Nat) (x : ℝ) (P : Pt) :
    P ∈ (s.el o).trace ⟨x, s.lo⟩ ↔ ∃ t : ℝ, 0 ≤ t ∧ t ≤ 1 ∧ P = ⟨bez2 x (s.xm o) (s.x1 o) t, s.lo + t * (s.hi - s.lo)⟩ := by
  simp only [Strip.el, El.trace, strip_eval, Set.mem_setOf_eq]

theorem Stacked.le {y0 y1 : ℝ} {ss : List Strip} (h : Stacked y0 y1 ss) : y0 ≤ y1 := by
  induction h with
  | nil => exact le_rfl
  | cons s h _ ih => exact h.le.trans ih

/-- The quadratics of the strips descend from `y0` to `y1`. -/
theorem stacked_trace {y0 y1 : ℝ} {ss : List Strip} (h : Stacked y0 y1 ss) (o : Nat) (x : ℝ) (P : Pt)
    (hP : P ∈ trace ⟨x, y0⟩ (ss.map fun s => s.el o)) : y0 ≤ P.y ∧ P.y ≤ y1 ∧ (P.y = y0 → P.x = x) := by
  induction h generalizing x with
  | nil => simp [trace] at hP
  | cons s h hst ih =>
    rcases hP with hP | hP
    · obtain ⟨t, t0, t1, rfl⟩ := (strip_trace s o x P).1 hP
      have hd : 0 < s.hi - s.lo := by linarith
      have e1 : 0 ≤ t * (s.hi - s.lo) := mul_nonneg t0 hd.le
      have e2 : t * (s.hi - s.lo) ≤ s.hi - s.lo := mul_le_of_le_one_left hd.le t1
      refine ⟨by simp only; linarith, by simp only; linarith [hst.le], ?_⟩
      intro e
      simp only at e
      have : t = 0 := by
        rcases mul_eq_zero.1 (by linarith : t * (s.hi - s.lo) = 0) with h | h
        · exact h
        · exact absurd h hd.ne'
      rw [this]; exact bez2_zero _ _ _
    · obtain ⟨h1, h2, h3⟩ := ih (s.x1 o) hP
      exact ⟨h.le.trans h1, h2, fun e => by linarith⟩

/-- If the positions in all strips are ordered and the first points are, then so are all points at the same height. -/
theorem stacked_ordered {y0 y1 : ℝ} {ss : List Strip} (h : Stacked y0 y1 ss) {a b : Nat} (hord : ∀ s ∈ ss, s.xm a ≤ s.xm b ∧ s.x1 a ≤ s.x1 b)
    {xa xb : ℝ} (hx : xa ≤ xb) (P Q : Pt) (hP : P ∈ trace ⟨xa, y0⟩ (ss.map fun s => s.el a)) (hQ : Q ∈ trace ⟨xb, y0⟩ (ss.map fun s => s.el b))
    (hy : P.y = Q.y) : P.x ≤ Q.x := by
  induction h generalizing xa xb with
  | nil => simp [trace] at hP
  | cons s h hst ih =>
    obtain ⟨m1, m2⟩ := hord s (by simp)
    have hd : 0 < s.hi - s.lo := by linarith
    have low : ∀ (o : Nat) (x : ℝ) (R : Pt), R ∈ (s.el o).trace ⟨x, s.lo⟩ → R.y ≤ s.hi ∧ (R.y = s.hi → R.x = s.x1 o) := by
      intro o x R hR
      obtain ⟨t, t0, t1, rfl⟩ := (strip_trace s o x R).1 hR
      have e2 : t * (s.hi - s.lo) ≤ s.hi - s.lo := mul_le_of_le_one_left hd.le t1
      refine ⟨by simp only; linarith, fun e => ?_⟩
      simp only at e
      have : t = 1 := by
        have : (t - 1) * (s.hi - s.lo) = 0 := by linarith
        rcases mul_eq_zero.1 this with h | h
        · linarith
        · exact absurd h hd.ne'
      rw [this]; exact bez2_one _ _ _
    rcases hP with hP | hP <;> rcases hQ with hQ | hQ
    · obtain ⟨t, t0, t1, rfl⟩ := (strip_trace s a xa P).1 hP
      obtain ⟨u, u0, u1, rfl⟩ := (strip_trace s b xb Q).1 hQ
      simp only at hy ⊢
      have : t = u := by
        have : (t - u) * (s.hi - s.lo) = 0 := by linarith
        rcases mul_eq_zero.1 this with h | h
        · linarith
        · exact absurd h hd.ne'
      subst this
      exact bez2_mono t0 t1 hx m1 m2
    · obtain ⟨k1, k2⟩ := low a xa P hP
      obtain ⟨k3, _, k4⟩ := stacked_trace hst b (s.x1 b) Q hQ
      rw [k2 (by linarith), k4 (by linarith)]
      exact m2
    · obtain ⟨k1, k2⟩ := low b xb Q hQ
      obtain ⟨k3, _, k4⟩ := stacked_trace hst a (s.x1 a) P hP
      rw [k2 (by linarith), k4 (by linarith)]
      exact m2
    · exact ih (fun s' hs' => hord s' (by simp [hs'])) m2 hP hQ

theorem Stacked.nil_eq {a b : ℝ} (h : Stacked a b []) : a = b := by cases h; rfl

/-- The end of the strips. -/
theorem stacked_stop {y0 y1 : ℝ} {ss : List Strip} (h : Stacked y0 y1 ss) (o : Nat) (p : OPath) (hp : p.stop.y = y0 ∨ ss ≠ []) :
    ({ p with els := p.els ++ ss.map fun s => s.el o } : OPath).stop.y = y1 := by
  induction h generalizing p with
  | nil y => simpa using hp
  | cons s h hst ih =>
    rw [List.map_cons, List.append_cons]
    rename_i l
    rcases l with _ | ⟨s', l⟩
    · rw [← hst.nil_eq]; simp [OPath.stop, Strip.el, El.stop]
    · exact ih { p with els := p.els ++ [s.el o] } (.inr (by simp))

end Verif.Pos
