import Verif.Sweep.Model

/-!
# More fuel changes nothing
-/

namespace Verif.Sweep
open Verif.Curve Verif.Range Verif.Topo

variable {K : Type} [LinearOrder K] {W : Type} [AddCommGroup W] {E : Env K} {single : Nat → Bool → W}

theorem intLoop_mono (f : Nat) : ∀ {f' : Nat} {s s' : State K}, f ≤ f' → intLoop E f s = some s' → intLoop E f' s = some s' := by
  induction f with
  | zero => intro f' s s' _ h; simp [intLoop] at h
  | succ f ih =>
    intro f' s s' hf h
    obtain ⟨g, rfl⟩ : ∃ g, f' = g + 1 := ⟨f' - 1, by omega⟩
    simp only [intLoop] at h ⊢
    cases hi : s.ints with
    | nil => rw [hi] at h; exact h
    | cons e rest =>
      rw [hi] at h
      dsimp only at h ⊢
      by_cases he : e.y = s.y
      · rw [if_pos he] at h ⊢
        cases h1 : handleIntersection E { s with ints := rest } e.left e.right with
        | none => rw [h1] at h; simp at h
        | some s1 =>
          rw [h1] at h
          exact ih (by omega) h
      · rw [if_neg he] at h ⊢
        exact h

theorem nextLine_mono {f f' : Nat} (hf : f ≤ f') {s : State K} {r : Option (State K)} (h : nextLine E f s = some r) : nextLine E f' s = some r := by
  unfold nextLine at h ⊢
  cases h1 : nextY E s with
  | none => rw [h1] at h; exact h
  | some y =>
    rw [h1] at h
    dsimp only at h ⊢
    cases h2 : advance s y with
    | none => rw [h2] at h; simp at h
    | some s1 =>
      rw [h2] at h
      dsimp only at h ⊢
      split at h
      · simp at h
      rename_i s2 hs2
      split at h
      · simp at h
      rename_i s3 hs3
      split at h
      · simp at h
      rename_i s4 hs4
      rw [intLoop_mono _ hf hs4]
      exact h

theorem sweepLoop_mono {f2 f2' : Nat} (hf2 : f2 ≤ f2') (f : Nat) : ∀ {f' : Nat} {s : State K} {buf : List Entry} {t t' : Topo K W}, f ≤ f' →
    sweepLoop E single f2 f s buf t = some t' → sweepLoop E single f2' f' s buf t = some t' := by
  induction f with
  | zero => intro f' s buf t t' _ h; simp [sweepLoop] at h
  | succ f ih =>
    intro f' s buf t t' hf h
    obtain ⟨g, rfl⟩ : ∃ g, f' = g + 1 := ⟨f' - 1, by omega⟩
    simp only [sweepLoop] at h ⊢
    split at h
    · simp at h
    · rename_i hn
      rw [nextLine_mono hf2 hn]
      exact h
    · rename_i s1 hn
      rw [nextLine_mono hf2 hn]
      dsimp only
      split at h
      · simp at h
      rename_i buf1 t1 hp
      exact ih (by omega) h

/-- If the sweep returns, it returns the same with more fuel. -/
theorem fromSegments_mono {f2 f2' f f' : Nat} (hf2 : f2 ≤ f2') (hf : f ≤ f') {t : Topo K W} (h : fromSegments E single f2 f = some t) :
    fromSegments E single f2' f' = some t := sweepLoop_mono hf2 f hf h

end Verif.Sweep
