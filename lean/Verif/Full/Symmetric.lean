import Verif.Geom.Symmetric
import Verif.Full.Compare

/-!
# The comparisons do not depend on which direction is asked first (C89)
-/

namespace Verif.Full
open Verif.Curve

theorem slopLoop_flip (down up : ℝ → ℝ) (start lastEnd : ℝ) (ps : List (Piece ℝ)) :
    CurveOrder.slopLoop down up start lastEnd (ps.map fun p => ⟨p.lo, p.hi, p.order.flip⟩) = (CurveOrder.slopLoop down up start lastEnd ps).map Entry.flip := by
  induction ps with
  | nil => rfl
  | cons p ps ih =>
    simp only [List.map_cons, CurveOrder.slopLoop, List.map_append, ih]
    congr 1
    have : (p.order.flip ≠ .ish) = (p.order ≠ .ish) := by rw [ne_eq, Geom.flip_ish]
    simp only [this]
    split_ifs <;> simp [Entry.flip, Order.flip]

theorem withYSlop_flip (z : Bool) (down up : ℝ → ℝ) (c : CurveOrder ℝ) : c.flip.withYSlop z down up = (c.withYSlop z down up).map CurveOrder.flip := by
  unfold CurveOrder.withYSlop
  cases z with
  | true => rfl
  | false =>
    rw [Geom.flip_last]
    rcases hl : c.cmps.getLast? with _ | ⟨ls, lo⟩
    · rfl
    · simp only [Option.map_some, Entry.flip]
      have e : c.flip.start = c.start := rfl
      rw [e]
      by_cases h : c.start = ls
      · simp [h]
      · simp only [h, if_false, Bool.false_eq_true]
        rw [Geom.iter_flip, slopLoop_flip, List.getLast?_map]
        rcases hr : (CurveOrder.slopLoop down up c.start ls c.iter).getLast? with _ | ⟨rs, ro⟩
        · simp [CurveOrder.flip, Entry.flip, Order.flip]
        · by_cases hs : rs = ls <;> simp [CurveOrder.flip, Entry.flip, Order.flip, hs]

/-- A comparison that is not in the cache. -/
theorem compareNew_flip {solve : ℝ → ℝ → ℝ → ℝ → List ℝ} (hs : Geom.FindsRoots solve) {tol acc : ℝ} (htol : 0 < tol) (hacc : 0 < acc) (slop : ℝ) {a b : Geom.Seg}
    (ha : a.Down) (hb : b.Down) (hU : Geom.Upright acc a.toCubic b.toCubic) : compareNew solve tol acc slop b a = (compareNew solve tol acc slop a b).flip := by
  have key := Geom.C89_symmetric hs htol hacc (toCubic_mono ha) (toCubic_mono hb) hU
  have e1 : ∀ out, Ends solve tol acc a.toCubic b.toCubic out → Ends solve tol acc b.toCubic a.toCubic out.flip := by
    rintro out ⟨N, h⟩
    exact ⟨N, fun n hn => by rw [key, h n hn]; rfl⟩
  have e2 : ∀ out, Ends solve tol acc b.toCubic a.toCubic out → Ends solve tol acc a.toCubic b.toCubic out.flip := by
    rintro out ⟨N, h⟩
    refine ⟨N, fun n hn => ?_⟩
    have := h n hn
    rw [key] at this
    cases hx : Geom.intersectCubics solve tol acc n a.toCubic b.toCubic with
    | none => rw [hx] at this; cases this
    | some r =>
      rw [hx] at this
      simp only [Option.map_some, Option.some.injEq] at this
      rw [← this, C09_flip_flip]
  unfold compareNew
  by_cases h : ∃ out, Ends solve tol acc a.toCubic b.toCubic out
  · have h' : ∃ out, Ends solve tol acc b.toCubic a.toCubic out := ⟨_, e1 _ (Classical.choose_spec h)⟩
    rw [dif_pos h, dif_pos h', show Classical.choose h' = (Classical.choose h).flip from (Classical.choose_spec h').unique (e1 _ (Classical.choose_spec h)), withYSlop_flip]
    cases (Classical.choose h).withYSlop (decide (slop = 0)) (· - slop) (· + slop) <;> rfl
  · have h' : ¬ ∃ out, Ends solve tol acc b.toCubic a.toCubic out := fun ⟨_, k⟩ => h ⟨_, e2 _ k⟩
    rw [dif_neg h, dif_neg h']; rfl

/-- **C89.** What `compare_segments` says about two slanted segments that are never compared after a rotation does not depend on which of them was asked first, nor on
the order in which the cache was filled. -/
theorem C89_compare {solve : ℝ → ℝ → ℝ → ℝ → List ℝ} (hs : Geom.FindsRoots solve) {tol acc : ℝ} (htol : 0 < tol) (hacc : 0 < acc) (slop : ℝ) {segs : Nat → Geom.Seg} {i j : Nat}
    (ha : (segs i).Down) (hb : (segs j).Down) (hU : Geom.Upright acc (segs i).toCubic (segs j).toCubic) (first first' : Nat → Nat → Bool) :
    compare solve tol acc slop first segs i j = compare solve tol acc slop first' segs i j ∧
    compare solve tol acc slop first segs j i = (compare solve tol acc slop first segs i j).flip := by
  have hU' : Geom.Upright acc (segs j).toCubic (segs i).toCubic := by
    intro u v x0 x1 x0' x1' h h0 h0' h1 h1'
    rcases hU u v x1 x0 x1' x0' h h1 h1' h0 h0' with k | k | k
    · exact .inr (.inl k)
    · exact .inl k
    · exact .inr (.inr fun e => k e.symm)
  have e : ∀ f : Nat → Nat → Bool, compare solve tol acc slop f segs i j = compareNew solve tol acc slop (segs i) (segs j) := by
    intro f
    unfold compare
    split
    · rfl
    · exact (compareNew_flip hs htol hacc slop hb ha hU').symm
  have e' : compare solve tol acc slop first segs j i = compareNew solve tol acc slop (segs j) (segs i) := by
    unfold compare
    split
    · rfl
    · exact (compareNew_flip hs htol hacc slop ha hb hU).symm
  exact ⟨by rw [e, e], by rw [e, e', compareNew_flip hs htol hacc slop ha hb hU]⟩

end Verif.Full
