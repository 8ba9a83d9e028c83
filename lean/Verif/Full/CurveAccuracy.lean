import Verif.Full.Curves
import Verif.Full.CurveExample
import Verif.Full.Accurate

/-!
# C84 for curves: the output stays within the tolerance of the input
-/

namespace Verif.Full
open Verif.Segs (Segments PathEl)
open Verif.Curve Verif.BinOp
set_option linter.unusedSectionVars false

variable {cfg : Cfg} {s s' : Segments ℝ} {ρ : Nat → ℝ} {rule : FillRule} {op : Op} {fuel : Nat} {t' : Topo.Topo ℝ BinaryWinding} {cs : List Contours.Contour}

/-- Segments that cross (or are nowhere clearly apart) and that are near each other come within `2 eps` of each other. -/
def Tight (eps : ℝ) (ρ : Nat → ℝ) (s : Segments ℝ) : Prop := ∀ i j t, i ≠ j → Has s t i → Has s t j →
  ¬ Peaceful eps (ρ i + ρ j) (segAt s i) (segAt s j) → Near eps (ρ i + ρ j) t (segAt s i) (segAt s j) → Touching eps t (segAt s i) (segAt s j)

/-- A segment whose control polygon is not flat does not move to the side by more than `σ` times the height. -/
theorem atY_steep {g : Geom.Seg} (hd : g.Down) {σ u v : ℝ} (hs : g.toCubic.Steep σ) (h0 : g.start.y ≤ u) (huv : u ≤ v) (h1 : v ≤ g.stop.y) :
    |g.atY v - g.atY u| ≤ σ * (v - u) := by
  rw [atY_solveX hd (h0.trans huv) h1, atY_solveX hd h0 (huv.trans h1)]
  exact (hs.extent_sub (toCubic_mono hd) ⟨by rw [(Geom.C42_to_cubic _).2.1]; exact h0, huv, by rw [(Geom.C42_to_cubic _).2.2]; exact h1⟩).2.2

/-- From a point at most `2 eps` above or below to one that is at most `eps` above or below. -/
theorem nearer {g : Geom.Seg} (hd : g.Down) {σ eps t y : ℝ} (he : 0 < eps) (hσ : 0 ≤ σ) (hs : g.toCubic.Steep σ) (ht : g.start.y ≤ t ∧ t ≤ g.stop.y)
    (hy : g.start.y ≤ y ∧ y ≤ g.stop.y) (h : |y - t| ≤ 2 * eps) : ∃ z, (g.start.y ≤ z ∧ z ≤ g.stop.y) ∧ |z - t| ≤ eps ∧ |g.atY y - g.atY z| ≤ σ * eps := by
  rw [abs_le] at h
  by_cases c1 : y < t - eps
  · refine ⟨t - eps, ⟨by linarith [hy.1], by linarith [ht.2]⟩, by rw [abs_le]; constructor <;> linarith, ?_⟩
    rw [abs_sub_comm]
    have := atY_steep hd hs hy.1 c1.le (by linarith [ht.2])
    nlinarith
  by_cases c2 : t + eps < y
  · refine ⟨t + eps, ⟨by linarith [ht.1], by linarith [hy.2]⟩, by rw [abs_le]; constructor <;> linarith, ?_⟩
    have := atY_steep hd hs (by linarith [ht.1]) c2.le hy.2
    nlinarith
  push Not at c1 c2
  refine ⟨y, hy, by rw [abs_le]; constructor <;> linarith, ?_⟩
  rw [sub_self, abs_zero]; positivity

/-- Segments whose control polygons are not flat are tight. -/
theorem tight_of_steep {T : Type} {tags : List T} (h : Arena s tags) {eps : ℝ} (he : 0 < eps) {σ : Nat → ℝ} (hσ : ∀ i, Slanted s i → 0 ≤ σ i ∧ (segAt s i).toCubic.Steep (σ i))
    (hr : ∀ i j, Slanted s i → Slanted s j → ¬ Peaceful eps (ρ i + ρ j) (segAt s i) (segAt s j) → ρ i + ρ j + (σ i + σ j) * eps ≤ eps / 2) : Tight eps ρ s := by
  intro i j t _ hi hj hw hn
  obtain ⟨y0, y1, h1, h2, h3, h4, h5⟩ := hn
  obtain ⟨z0, k1, k2, k3⟩ := nearer (hi.1.down h) he (hσ i hi.1).1 (hσ i hi.1).2 hi.2 h1 h3
  obtain ⟨z1, l1, l2, l3⟩ := nearer (hj.1.down h) he (hσ j hj.1).1 (hσ j hj.1).2 hj.2 h2 h4
  refine ⟨z0, z1, k1, l1, k2, l2, ?_⟩
  have := hr i j hi.1 hj.1 hw
  rw [abs_le] at h5 k3 l3 ⊢
  constructor <;> linarith

theorem meets_curves {T : Type} {tags : List T} (ha : Arena s tags) (he : 0 < cfg.eps) (hsolve : Geom.FindsRoots cfg.solve) (hf : OneFirst cfg.first)
    (hL : LooseCurves cfg.eps ρ s) (hT : Tight cfg.eps ρ s) : Meets cfg s := by
  intro i j t hne hc hbl
  exact hT i j t hne hbl.1 hbl.2.1 (fun hp => hc (calm_of_peaceful ha he hsolve hL hbl.1.1 hbl.2.1.1 hp)) (blurred_near ha he hsolve hf hL hne hbl)

/-- C84 for curves in general position: every end of every segment of the result is within the tolerance of the input segment that it comes from. -/
theorem C84_curves {a b : List (PathEl ℝ)} (he : 0 < cfg.eps) (hpp : Searches cfg.pp) (hsolve : Geom.FindsRoots cfg.solve) (hf : OneFirst cfg.first)
    (h : binaryOp cfg a b rule op fuel = .ok s' t' cs) (hL : LooseCurves cfg.eps ρ s') (hT : Tight cfg.eps ρ s') (hB : Beyond cfg s') : Accurate cfg.eps s' t' := by
  obtain ⟨s, tags, hb, h1⟩ := binaryOp_ok h
  obtain ⟨rfl, -⟩ := finish_ok h1
  have ha := buildPaths_arena hb
  exact C84_general he hpp hsolve hf h (general_of_curves ha he hsolve hf hL) (meets_curves ha he hsolve hf hL hT) hB

namespace Bow

/-- The intersection of the two bows: every end of every segment of the result is within a hundredth of the input. -/
theorem and_accurate : ∃ s N t' cs, (∀ fuel, N ≤ fuel → binaryOp Cross.cfg' thin large .evenOdd .intersection fuel = .ok s t' cs) ∧ Accurate (1 / 100) s t' := by
  obtain ⟨s, tags, hb⟩ := built
  obtain ⟨hl, hp⟩ := arena_bows hb
  have lt : ∀ {i}, Slanted s i → i < 4 := fun h => by rw [← hl]; exact h.1
  obtain ⟨N, t', cs, h1, -⟩ := C87_curves (cfg := Cross.cfg') (by norm_num [Cross.cfg, Cross.cfg']) Ex.searches (Classical.choose_spec Geom.findsRoots_exists) Cross.oneFirst hb
    (loose hb) .evenOdd .intersection
  refine ⟨s, N, t', cs, h1, ?_⟩
  refine C84_curves (cfg := Cross.cfg') (ρ := fun _ => 1 / 5000) (by norm_num [Cross.cfg, Cross.cfg']) Ex.searches (Classical.choose_spec Geom.findsRoots_exists) Cross.oneFirst (h1 N le_rfl)
    (loose hb) (tight_of_steep (buildPaths_arena hb) (by norm_num [Cross.cfg, Cross.cfg']) (σ := fun _ => 1 / 375) (fun i hi => ?_) (fun i j _ _ _ => ?_)) ?_
  · rw [hp i (lt hi)]; exact ⟨by norm_num, steep_piece i⟩
  · norm_num [Cross.cfg', Cross.cfg]
  · intro i hi p hon
    have li : i < 4 := by rw [← hl]; exact hi
    rw [hp i li] at hon
    have hy := (piece i).on_y (down_piece i) p hon
    have hx := ((piece i).on_iff (down_piece i) p.y p.x hy.1 hy.2).1 hon
    change -100 ≤ p.x ∧ p.x ≤ 100
    rw [hx]
    have := bound_piece i p.y hy.1 hy.2
    rw [abs_le] at this
    constructor <;> linarith

end Bow

end Verif.Full
