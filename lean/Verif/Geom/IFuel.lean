import Verif.Geom.ITerm

/-! Lemmas for `intersect_cubics` (no claims): more fuel does not change the result. -/

namespace Verif.Geom
open Verif.Curve

theorem withRotation_mono {f g : Cubic → Cubic → ℝ → ℝ → CurveOrder ℝ → Option (CurveOrder ℝ)}
    (h : ∀ c0 c1 y0 y1 out r, f c0 c1 y0 y1 out = some r → g c0 c1 y0 y1 out = some r) (tol : ℝ) (c0 c1 : Cubic) (y0 y1 : ℝ) (out : CurveOrder ℝ) :
    (withRotation f tol c0 c1 y0 y1 out = none → withRotation g tol c0 c1 y0 y1 out = none) ∧
    ∀ r, withRotation f tol c0 c1 y0 y1 out = some (some r) → withRotation g tol c0 c1 y0 y1 out = some (some r) := by
  by_cases hA : |c0.p3.x - c0.p0.x| < (y1 - y0) * 16 ∨ |c1.p3.x - c1.p0.x| < (y1 - y0) * 16
  · simp only [withRotation, if_pos hA]; simp
  by_cases hB : ¬ (0 < c0.p3.x - c0.p0.x ↔ 0 < c1.p3.x - c1.p0.x)
  · simp only [withRotation, if_neg hA, if_pos hB]; simp
  simp only [withRotation, if_neg hA, if_neg hB]
  generalize (@ite ℝ (0 < c0.p3.x - c0.p0.x) (Classical.propDecidable _) 1 (-1)) = s
  generalize (⟨(c0.p0.x + c0.p3.x) / 2, (y0 + y1) / 2⟩ : Pt) = z
  by_cases hC : ¬ (rotC s z c0).CtrlMono
  · simp only [rotated, if_pos hC]; simp
  by_cases hD : ¬ (rotC s z c1).CtrlMono
  · simp only [rotated, if_neg hC, if_pos hD]; simp
  by_cases hE : min (rotC s z c0).p3.y (rotC s z c1).p3.y ≤ max (rotC s z c0).p0.y (rotC s z c1).p0.y
  · simp only [rotated, if_neg hC, if_neg hD, if_pos hE]; simp
  simp only [rotated, if_neg hC, if_neg hD, if_neg hE]
  cases hf : f (rotC s z c0) (rotC s z c1) (max (rotC s z c0).p0.y (rotC s z c1).p0.y) (min (rotC s z c0).p3.y (rotC s z c1).p3.y)
      (CurveOrder.new (max (rotC s z c0).p0.y (rotC s z c1).p0.y)) with
  | none => simp
  | some ord => rw [h _ _ _ _ _ _ hf]; simp

theorem allPieces_mono {f g : ℝ → ℝ → CurveOrder ℝ → Option (CurveOrder ℝ)} (h : ∀ y0 y1 out r, f y0 y1 out = some r → g y0 y1 out = some r)
    (acc y0 y1 spread : ℝ) (ps : List (Piece ℝ)) : ∀ (out r : CurveOrder ℝ), allPieces f acc y0 y1 spread out ps = some r →
    allPieces g acc y0 y1 spread out ps = some r := by
  induction ps with
  | nil => intro out r hr; exact hr
  | cons p ps ih =>
    intro out r hr
    simp only [allPieces] at hr ⊢
    obtain ⟨o, h1, h2⟩ := Option.bind_eq_some_iff.1 hr
    refine Option.bind_eq_some_iff.2 ⟨o, ?_, ih _ _ h2⟩
    unfold onePiece at h1 ⊢
    split at h1
    · next hi =>
      dsimp only at h1
      rw [if_pos hi]
      dsimp only
      split at h1
      · next ha => rw [if_pos ha]; exact h1
      · next ha =>
        rw [if_neg ha]
        split at h1
        · next hb => rw [if_pos hb]; exact h _ _ _ _ h1
        · next hb =>
          rw [if_neg hb]
          obtain ⟨o', h3, h4⟩ := Option.bind_eq_some_iff.1 h1
          exact Option.bind_eq_some_iff.2 ⟨o', h _ _ _ _ h3, h _ _ _ _ h4⟩
    · next hi => rw [if_neg hi]; exact h1

theorem intersectRec_mono (solve : ℝ → ℝ → ℝ → ℝ → List ℝ) (tol acc : ℝ) (n : ℕ) : ∀ (c0 c1 : Cubic) (y0 y1 : ℝ) (out r : CurveOrder ℝ),
    intersectRec solve tol acc n c0 c1 y0 y1 out = some r → intersectRec solve tol acc (n + 1) c0 c1 y0 y1 out = some r := by
  induction n with
  | zero => intro c0 c1 y0 y1 out r h; simp [intersectRec] at h
  | succ n ih =>
    intro c0 c1 y0 y1 out r h
    rw [intersectRec] at h
    rw [intersectRec]
    dsimp only at h ⊢
    split at h
    · next hd => rw [if_pos hd]; exact h
    · next hd =>
      rw [if_neg hd]
      split at h
      · next hb => rw [if_pos hb]; exact h
      · next hb =>
        rw [if_neg hb]
        obtain ⟨w1, w2⟩ := withRotation_mono ih tol (ySubsegment c0 y0 y1) (ySubsegment c1 y0 y1) y0 y1 out
        cases hw : withRotation (intersectRec solve tol acc n) tol (ySubsegment c0 y0 y1) (ySubsegment c1 y0 y1) y0 y1 out with
        | some o =>
          rw [hw] at h
          dsimp only at h
          subst h
          rw [w2 _ hw]
        | none =>
          rw [hw] at h
          dsimp only at h
          rw [w1 hw]
          dsimp only
          split at h
          · exact absurd h (by simp)
          · next sc hsc =>
            split at h
            · exact absurd h (by simp)
            · next us hus =>
              exact allPieces_mono (fun y0 y1 out r => ih c0 c1 y0 y1 out r) _ _ _ _ _ _ _ h

theorem intersectRec_le (solve : ℝ → ℝ → ℝ → ℝ → List ℝ) (tol acc : ℝ) {n m : ℕ} (hnm : n ≤ m) {c0 c1 : Cubic} {y0 y1 : ℝ} {out r : CurveOrder ℝ}
    (h : intersectRec solve tol acc n c0 c1 y0 y1 out = some r) : intersectRec solve tol acc m c0 c1 y0 y1 out = some r := by
  induction m with
  | zero => rw [Nat.le_zero.1 hnm] at h; exact h
  | succ m ih =>
    rcases Nat.lt_or_ge m n with h1 | h1
    · have : n = m + 1 := by omega
      rw [← this]; exact h
    · exact intersectRec_mono _ _ _ _ _ _ _ _ _ _ (ih h1)

end Verif.Geom
