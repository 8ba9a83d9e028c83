import Verif.Full.CurveLaws
import Verif.Full.CurvedExample

/-!
# An example for C91: the two bows
-/

namespace Verif.Full
open Verif.Segs (Segments PathEl PathSeg)
open Verif.Curve Verif.BinOp

namespace Bow

/-- How far the returned paths can be from the bows. -/
noncomputable def kappa : ℝ := driftOf (1 / 100) (1 / 375) (1 / 375) (2 / 125) 50

theorem suited {s : Segments ℝ} {tags : List Bool} (hb : buildPaths (tagged thin large) = .ok s tags) : Suited Cross.cfg' kappa s := by
  obtain ⟨hl, hp⟩ := arena_bows hb
  have lt : ∀ {i}, Slanted s i → i < 4 := fun h => by rw [← hl]; exact h.1
  refine ⟨unsplit hb, beyond hb, fun _ => 1 / 5000, 1 / 375, 1 / 375, 2 / 125, 50, loose hb, ?_, mild hb, fun i _ => by norm_num [Cross.cfg', Cross.cfg], rfl⟩
  exact tight_of_steep (buildPaths_arena hb) (by norm_num [Cross.cfg, Cross.cfg']) (σ := fun _ => 1 / 375) (fun i hi => by rw [hp i (lt hi)]; exact ⟨by norm_num, steep_piece i⟩)
      (fun i j _ _ _ => by norm_num [Cross.cfg', Cross.cfg])

/-- C91 for the two bows: with the arguments exchanged the exclusive or is the same, at a point that is in it; and the first bow and nothing is the first bow. -/
theorem bow_laws (again again' : Nat → Nat → Bool) : ∃ out out' u, Gives Cross.cfg' again thin large .evenOdd .xor out ∧ Gives Cross.cfg' again' large thin .evenOdd .xor out' ∧
    Gives Cross.cfg' again thin [] .evenOdd .union u ∧ windOut out (5 / 2) 1500 = 1 ∧ windOut out' (5 / 2) 1500 = 1 ∧ windOut u (-1) 1500 = 0 := by
  obtain ⟨s, tags, hb⟩ := built
  have he : 0 < Cross.cfg'.eps := by norm_num [Cross.cfg, Cross.cfg']
  have hR := suited hb
  have hsolve := Classical.choose_spec Geom.findsRoots_exists
  obtain ⟨⟨out, h1⟩, -, ⟨-, -⟩⟩ := C91_return (again := again) (rule := .evenOdd) he Ex.searches hsolve Cross.oneFirst hb hR .xor
  obtain ⟨-, ⟨out', h2⟩, -⟩ := C91_return (again := again') (rule := .evenOdd) he Ex.searches hsolve Cross.oneFirst hb hR .xor
  obtain ⟨-, -, ⟨u, h3⟩⟩ := C91_return (again := again) (rule := .evenOdd) he Ex.searches hsolve Cross.oneFirst hb hR .union
  have k : windOut out (5 / 2) 1500 = 1 := by
    obtain ⟨N, o, h4, h5, -⟩ := xor_of_bows again
    obtain rfl := h1.unique ⟨N, h4⟩
    exact h5
  refine ⟨out, out', u, h1, h2, h3, k, ?_, ?_⟩
  · rw [← C91_commutative he Ex.searches hsolve Cross.oneFirst hb hR (by simp) h1 h2 (outside hb (.inl rfl)), k]
  · refine (C91_nothing he Ex.searches hsolve Cross.oneFirst hb hR h3 (outside hb (.inr rfl))).2 (.inl ?_)
    unfold Fills
    rw [thin, wind_bow (by norm_num)]
    norm_num [InShape]

end Bow

end Verif.Full
