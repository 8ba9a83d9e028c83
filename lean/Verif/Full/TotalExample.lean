import Verif.Full.Total
import Verif.Sweep.Example

/-!
# An operation from the beginning to the end
-/

namespace Verif.Full
open Verif.Segs (Segments PathEl)
open Verif.Curve Verif.BinOp
set_option linter.unusedSectionVars false

/-! ## Non-vacuity: a triangle without the square inside it -/

namespace Ex

/-- The binary search of the tree. -/
theorem searches : Searches Sweep.firstFalse := by
  have := Sweep.firstFalse_pp (K := ℝ) (E := env ⟨1, fun _ _ _ _ => [], fun _ _ => true, fun _ _ => true, Sweep.firstFalse, 0, 0⟩ Segments.empty) rfl
  exact ⟨this.le, this.left, this.right, this.mono⟩

/-- A configuration with a tolerance of a tenth. -/
noncomputable def cfg : Cfg := ⟨1 / 10, Classical.choose Geom.findsRoots_exists, fun _ _ => true, fun _ _ => true, Sweep.firstFalse, 0, 0⟩

/-- Points that are clear of all edges at half the height of the square. -/
theorem away {x : ℝ} (h : ∀ i : Fin 4, (∀ y, 7 ≤ y → y ≤ 8 → (edge i).atY y ≤ x - 1 / 10) ∨ ∀ y, 7 ≤ y → y ≤ 8 → x + 1 / 10 ≤ (edge i).atY y) :
    Away cfg (buildPolylines [triangle] [square]).1 x (15 / 2) := by
  intro a ha h1 h2
  obtain ⟨i, hi⟩ := edge_eq (slanted_edge (as := [triangle]) (bs := [square]) ⟨ha, lt_of_le_of_lt h1 h2⟩)
  have hr : ∀ y, |y - 15 / 2| ≤ (1 : ℝ) / 10 → 7 ≤ y ∧ y ≤ 8 := by
    intro y hy
    rw [abs_le] at hy
    constructor <;> linarith
  unfold Clear
  rw [hi]
  rcases h i with h | h
  · left
    intro y hy _ _
    exact h y (hr y hy).1 (hr y hy).2
  · right
    intro y hy _ _
    exact h y (hr y hy).1 (hr y hy).2

theorem cross_line (p q : Segs.Pt ℝ) (x z : ℝ) : cross (.line p q) x z =
    if p.y ≤ z ∧ z < q.y ∧ p.x + (z - p.y) / (q.y - p.y) * (q.x - p.x) < x then 1
    else if q.y ≤ z ∧ z < p.y ∧ q.x + (z - q.y) / (p.y - q.y) * (p.x - q.x) < x then -1 else 0 := by
  have key : ∀ p q : Segs.Pt ℝ, (p.y ≤ z ∧ z < q.y ∧ atY (.line p q) z < x) ↔ (p.y ≤ z ∧ z < q.y ∧ p.x + (z - p.y) / (q.y - p.y) * (q.x - p.x) < x) := by
    intro p q
    refine and_congr_right fun h1 => and_congr_right fun h2 => ?_
    have : ¬ (Geom.Seg.line (pt p) (pt q)).Horizontal := (lt_of_le_of_lt h1 h2).ne
    simp only [atY, seg, Geom.Seg.atY]
    rw [if_neg this]
    rfl
  unfold cross
  exact if_congr (key p q) rfl (if_congr (key q p) rfl rfl)

theorem triangle_wind (x : ℝ) (h1 : -15 / 2 < x) (h2 : x < 15 / 2) : windPolyline triangle x (15 / 2) = -1 := by
  simp only [windPolyline, Segs.closedEdges, triangle, List.length_cons, List.length_nil, List.tail_cons, List.take, List.cons_append, List.nil_append, List.zip_cons_cons,
      List.zip_nil_right, Nat.reduceAdd, Nat.reduceLeDiff, if_false, List.map_cons, List.map_nil, List.sum_cons, List.sum_nil, cross_line]
  norm_num
  rw [if_neg (by linarith), if_pos (by linarith)]
  norm_num

theorem square_wind (x : ℝ) : windPolyline square x (15 / 2) = (if -2 < x then 1 else 0) + (if 2 < x then -1 else 0) := by
  simp only [windPolyline, Segs.closedEdges, square, List.length_cons, List.length_nil, List.tail_cons, List.take, List.cons_append, List.nil_append, List.zip_cons_cons,
      List.zip_nil_right, Nat.reduceAdd, Nat.reduceLeDiff, if_false, List.map_cons, List.map_nil, List.sum_cons, List.sum_nil, cross_line]
  norm_num

/-- The triangle without the square: the operation returns, and the result has the point to the left of the square, but not the middle of it. -/
theorem triangle_without_square : ∃ N t' cs, (∀ fuel, N ≤ fuel → polylineOp cfg [triangle] [square] .nonZero .difference fuel = .ok (buildPolylines [triangle] [square]).1 t' cs) ∧
    windContours (buildPolylines [triangle] [square]).1 t' cs (-4) (15 / 2) = 1 ∧ windContours (buildPolylines [triangle] [square]).1 t' cs 0 (15 / 2) = 0 := by
  obtain ⟨N, t', cs, h1, h2⟩ := C80_polygons (cfg := cfg) (as := [triangle]) (bs := [square]) (by norm_num [cfg]) searches
    (Classical.choose_spec Geom.findsRoots_exists) polygons .nonZero .difference
  refine ⟨N, t', cs, h1, ?_, ?_⟩
  · refine (h2 (-4) (15 / 2) (away ?_)).1 ?_
    · intro i
      fin_cases i
      · left; intro y h3 h4; simp only [Fin.zero_eta, at0]; linarith
      · right; intro y h3 h4; simp only [Fin.mk_one, at1]; linarith
      · right; intro y h3 h4; simp only [Fin.reduceFinMk, at2]; linarith
      · right; intro y h3 h4; simp only [Fin.reduceFinMk, at3]; linarith
    · simp only [List.map_cons, List.map_nil, List.sum_cons, List.sum_nil]
      rw [triangle_wind _ (by norm_num) (by norm_num), square_wind]
      norm_num [Combine, InShape]
  · refine (h2 0 (15 / 2) (away ?_)).2 ?_
    · intro i
      fin_cases i
      · left; intro y h3 h4; simp only [Fin.zero_eta, at0]; linarith
      · left; intro y h3 h4; simp only [Fin.mk_one, at1]; linarith
      · right; intro y h3 h4; simp only [Fin.reduceFinMk, at2]; linarith
      · right; intro y h3 h4; simp only [Fin.reduceFinMk, at3]; linarith
    · simp only [List.map_cons, List.map_nil, List.sum_cons, List.sum_nil]
      rw [triangle_wind _ (by norm_num) (by norm_num), square_wind]
      norm_num [Combine, InShape]

end Ex

end Verif.Full
