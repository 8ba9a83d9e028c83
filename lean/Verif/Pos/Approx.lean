import Verif.Pos.Model

/-!
# `approximate` (`src/position.rs`:147-184)
-/

namespace Verif.Pos
open Verif.Curve Verif.Geom Verif.Scan

/-- The test of one curve: the interval is short, or the parabola is accurate. -/
def Fits (solve : ℝ → ℝ → ℝ → ℝ → List ℝ) (acc y0 y1 : ℝ) (c : Cubic) : Prop :=
  y1 ≤ y0 + acc ∨ max (fromCubic solve (recentred c y0 y1)).dmax (-(fromCubic solve (recentred c y0 y1)).dmin) * errorWeight (recentred c y0 y1) < acc

theorem tryAll_some {solve : ℝ → ℝ → ℝ → ℝ → List ℝ} {acc y0 y1 : ℝ} {cs : List Cubic} {l : List EstParab} (h : tryAll solve acc y0 y1 cs = some l) :
    l = cs.map (fun c => fromCubic solve (recentred c y0 y1)) ∧ ∀ c ∈ cs, Fits solve acc y0 y1 c := by
  induction cs generalizing l with
  | nil => simp only [tryAll, Option.some.injEq] at h; simp [← h]
  | cons c cs ih =>
    simp only [tryAll] at h
    split at h
    · rename_i hf
      obtain ⟨l', h1, rfl⟩ := Option.map_eq_some_iff.1 h
      obtain ⟨h2, h3⟩ := ih h1
      refine ⟨by simp [h2], ?_⟩
      intro d hd
      rcases List.mem_cons.1 hd with rfl | hd
      · exact hf
      · exact h3 d hd
    · simp at h

theorem tryAll_ok {solve : ℝ → ℝ → ℝ → ℝ → List ℝ} {acc y0 y1 : ℝ} {cs : List Cubic} (h : ∀ c ∈ cs, Fits solve acc y0 y1 c) :
    ∃ l, tryAll solve acc y0 y1 cs = some l := by
  induction cs with
  | nil => exact ⟨_, rfl⟩
  | cons c cs ih =>
    obtain ⟨l, hl⟩ := ih fun d hd => h d (by simp [hd])
    have hc : Fits solve acc y0 y1 c := h c (by simp)
    unfold Fits at hc
    simp only [tryAll]
    rw [if_pos hc, hl]
    exact ⟨_, rfl⟩

theorem approximate_mono {solve : ℝ → ℝ → ℝ → ℝ → List ℝ} {acc : ℝ} {cs : List Cubic} {y0 : ℝ} : ∀ {n m : ℕ} {y1 : ℝ} {r : ℝ × List EstParab}, n ≤ m →
    approximate solve acc cs y0 n y1 = some r → approximate solve acc cs y0 m y1 = some r := by
  intro n
  induction n with
  | zero => intro m y1 r _ h; simp [approximate] at h
  | succ n ih =>
    intro m y1 r hm h
    obtain ⟨m, rfl⟩ : ∃ k, m = k + 1 := ⟨m - 1, by omega⟩
    simp only [approximate] at h ⊢
    cases ht : tryAll solve acc y0 y1 cs with
    | some l => rw [ht] at h; exact h
    | none => rw [ht] at h; exact ih (by omega) h

/-- The result of `approximate`: the interval was halved some number of times, all curves fit the last interval, and not all fit the one before
it. -/
theorem approximate_spec {solve : ℝ → ℝ → ℝ → ℝ → List ℝ} {acc : ℝ} {cs : List Cubic} {y0 : ℝ} : ∀ {n : ℕ} {y1 y : ℝ} {l : List EstParab},
    approximate solve acc cs y0 n y1 = some (y, l) →
    (∃ k : ℕ, y = y0 + (y1 - y0) / 2 ^ k ∧ ∀ j < k, ∃ c ∈ cs, ¬ Fits solve acc y0 (y0 + (y1 - y0) / 2 ^ j) c) ∧
    l = cs.map (fun c => fromCubic solve (recentred c y0 y)) ∧ ∀ c ∈ cs, Fits solve acc y0 y c := by
  intro n
  induction n with
  | zero => intro y1 y l h; simp [approximate] at h
  | succ n ih =>
    intro y1 y l h
    simp only [approximate] at h
    cases ht : tryAll solve acc y0 y1 cs with
    | some l' =>
      rw [ht] at h
      simp only [Option.some.injEq, Prod.mk.injEq] at h
      obtain ⟨rfl, rfl⟩ := h
      exact ⟨⟨0, by ring, by omega⟩, tryAll_some ht⟩
    | none =>
      rw [ht] at h
      obtain ⟨⟨k, h1, h2⟩, h3⟩ := ih h
      have he : ∀ j : ℕ, y0 + ((y0 + y1) / 2 - y0) / 2 ^ j = y0 + (y1 - y0) / 2 ^ (j + 1) := fun j => by
        rw [pow_succ]; field_simp; ring
      refine ⟨⟨k + 1, by rw [h1, he], ?_⟩, h3⟩
      intro j hj
      rcases j with _ | j
      · by_contra hc
        push Not at hc
        have e : y0 + (y1 - y0) / 2 ^ 0 = y1 := by ring
        rw [e] at hc
        obtain ⟨l', hl⟩ := tryAll_ok hc
        rw [hl] at ht; simp at ht
      · rw [← he]; exact h2 j (by omega)

theorem approximate_bounds {solve : ℝ → ℝ → ℝ → ℝ → List ℝ} {acc : ℝ} {cs : List Cubic} {y0 y1 y : ℝ} {n : ℕ} {l : List EstParab} (h01 : y0 < y1)
    (h : approximate solve acc cs y0 n y1 = some (y, l)) : y0 < y ∧ y ≤ y1 ∧ (y = y1 ∨ y0 + acc / 2 < y) := by
  obtain ⟨⟨k, rfl, h2⟩, _⟩ := approximate_spec h
  have hp : (0 : ℝ) < 2 ^ k := by positivity
  have hd : 0 < (y1 - y0) / 2 ^ k := div_pos (by linarith) hp
  have hle : (y1 - y0) / 2 ^ k ≤ y1 - y0 := div_le_self (by linarith) (one_le_pow₀ (by norm_num))
  refine ⟨by linarith, by linarith, ?_⟩
  rcases k with _ | k
  · left; ring
  · right
    obtain ⟨c, _, hc⟩ := h2 k (by omega)
    have : ¬ y0 + (y1 - y0) / 2 ^ k ≤ y0 + acc := fun h => hc (.inl h)
    have e : (y1 - y0) / 2 ^ k = 2 * ((y1 - y0) / 2 ^ (k + 1)) := by rw [pow_succ]; field_simp
    rw [e] at this
    linarith

theorem approximate_total (solve : ℝ → ℝ → ℝ → ℝ → List ℝ) {acc : ℝ} (ha : 0 < acc) (cs : List Cubic) (y0 y1 : ℝ) :
    ∃ n r, approximate solve acc cs y0 n y1 = some r := by
  obtain ⟨k, hk⟩ : ∃ k : ℕ, (y1 - y0) / 2 ^ k ≤ acc := by
    obtain ⟨k, hk⟩ := pow_unbounded_of_one_lt ((y1 - y0) / acc) (by norm_num : (1 : ℝ) < 2)
    refine ⟨k, ?_⟩
    rw [div_le_iff₀ (by positivity)]
    rw [div_lt_iff₀ ha] at hk
    linarith
  refine ⟨k + 1, ?_⟩
  induction k generalizing y1 with
  | zero =>
    obtain ⟨l, hl⟩ := tryAll_ok (solve := solve) (acc := acc) (y0 := y0) (y1 := y1) (cs := cs) (fun c _ => .inl (by simp at hk; linarith))
    exact ⟨_, by simp only [approximate]; rw [hl]⟩
  | succ k ih =>
    simp only [approximate]
    cases ht : tryAll solve acc y0 y1 cs with
    | some l => exact ⟨_, rfl⟩
    | none =>
      refine ih ((y0 + y1) / 2) ?_
      have e : ((y0 + y1) / 2 - y0) / 2 ^ k = (y1 - y0) / 2 ^ (k + 1) := by rw [pow_succ]; field_simp; ring
      rw [e]; exact hk

end Verif.Pos
