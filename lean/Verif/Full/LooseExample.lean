import Verif.Full.Loose
import Verif.Full.TotalExample

/-!
# Two triangles that cross
-/

namespace Verif.Full
open Verif.Segs (Segments)
open Verif.Curve Verif.BinOp
set_option linter.unusedSectionVars false

namespace Cross

/-- A triangle with a vertex at the top. -/
def up : List (Segs.Pt ℝ) := [⟨0, 0⟩, ⟨10, 10⟩, ⟨-10, 10⟩]
/-- A triangle with a vertex at the bottom. -/
def upsideDown : List (Segs.Pt ℝ) := [⟨-10, 4⟩, ⟨10, 4⟩, ⟨0, 14⟩]

/-- The edges that are not horizontal. -/
noncomputable def edge : Fin 4 → Geom.Seg
  | 0 => .line ⟨0, 0⟩ ⟨-10, 10⟩
  | 1 => .line ⟨0, 0⟩ ⟨10, 10⟩
  | 2 => .line ⟨-10, 4⟩ ⟨0, 14⟩
  | 3 => .line ⟨10, 4⟩ ⟨0, 14⟩

/-- Their numbers. -/
def num : Fin 4 → Nat
  | 0 => 2
  | 1 => 0
  | 2 => 5
  | 3 => 4

theorem at0 (t : ℝ) : (edge 0).atY t = -t := by simp [edge, Geom.Seg.atY, Geom.Seg.Horizontal]
theorem at1 (t : ℝ) : (edge 1).atY t = t := by simp [edge, Geom.Seg.atY, Geom.Seg.Horizontal]
theorem at2 (t : ℝ) : (edge 2).atY t = t - 14 := by
  simp only [edge, Geom.Seg.atY, Geom.Seg.Horizontal]; norm_num; ring
theorem at3 (t : ℝ) : (edge 3).atY t = 14 - t := by
  simp only [edge, Geom.Seg.atY, Geom.Seg.Horizontal]; norm_num; ring

theorem edge_list : edges [up, upsideDown] = [(⟨0, 0⟩, ⟨10, 10⟩), (⟨10, 10⟩, ⟨-10, 10⟩), (⟨-10, 10⟩, ⟨0, 0⟩), (⟨-10, 4⟩, ⟨10, 4⟩), (⟨10, 4⟩, ⟨0, 14⟩), (⟨0, 14⟩, ⟨-10, 4⟩)] := by
  simp [edges, Segs.closedEdges, up, upsideDown]

theorem edge_at {t : ℝ} {n : Nat} {g : Geom.Seg} (h : EdgeAt [up, upsideDown] t n g) : ∃ i, g = edge i ∧ n = num i := by
  obtain ⟨e, h1, h2, h3, _⟩ := h
  rw [edge_list] at h1
  unfold down at h3
  rcases n with _ | _ | _ | _ | _ | _ | n <;> simp only [List.getElem?_cons_zero, List.getElem?_cons_succ, List.getElem?_nil, Option.some.injEq, reduceCtorEq] at h1 <;>
    subst h1 <;> first | (exfalso; exact h2 rfl) | norm_num [pt] at h3
  · exact ⟨1, h3, rfl⟩
  · exact ⟨0, h3, rfl⟩
  · exact ⟨3, h3, rfl⟩
  · exact ⟨2, h3, rfl⟩

theorem edge_eq {g : Geom.Seg} (h : Edge [up, upsideDown] g) : ∃ i, g = edge i := by
  obtain ⟨ps, hps, e, he, hg, hlt⟩ := h
  have hm : e ∈ edges [up, upsideDown] := List.mem_flatMap.2 ⟨ps, hps, he⟩
  rw [edge_list] at hm
  simp only [List.mem_cons, List.not_mem_nil, or_false] at hm
  rcases hm with rfl | rfl | rfl | rfl | rfl | rfl <;> rcases hg with rfl | rfl <;> first | (exfalso; norm_num [pt, Geom.Seg.start, Geom.Seg.stop] at hlt; done) | simp only [pt]
  · exact ⟨1, rfl⟩
  · exact ⟨0, rfl⟩
  · exact ⟨3, rfl⟩
  · exact ⟨2, rfl⟩

theorem low (i : Fin 4) : (edge i).start.y = if i < 2 then 0 else 4 := by fin_cases i <;> simp [edge, Geom.Seg.start]
theorem high (i : Fin 4) : (edge i).stop.y = if i < 2 then 10 else 14 := by fin_cases i <;> simp [edge, Geom.Seg.stop]

/-- Only these edges meet, and only there. -/
theorem meets {i j : Fin 4} (hne : i ≠ j) {t : ℝ} (h : Meet (1 / 100) t (edge i) (edge j)) :
    (t < 1 ∧ (i = 0 ∧ j = 1 ∨ i = 1 ∧ j = 0)) ∨ (6 < t ∧ t < 8 ∧ (i = 0 ∧ j = 2 ∨ i = 2 ∧ j = 0 ∨ i = 1 ∧ j = 3 ∨ i = 3 ∧ j = 1)) ∨
    (13 < t ∧ (i = 2 ∧ j = 3 ∨ i = 3 ∧ j = 2)) := by
  obtain ⟨y0, y1, _, _, h3, h4, h5⟩ := h
  rw [abs_le] at h3 h4 h5
  fin_cases i <;> fin_cases j <;> simp only [Fin.zero_eta, Fin.mk_one, Fin.reduceFinMk, at0, at1, at2, at3] at h5 ⊢ <;>
    first
    | exact absurd rfl hne
    | (exfalso; linarith)
    | (left; exact ⟨by linarith, by decide⟩)
    | (right; left; exact ⟨by linarith, by linarith, by decide⟩)
    | (right; right; exact ⟨by linarith, by decide⟩)

theorem loose : LoosePolygons (1 / 100) [up, upsideDown] := by
  refine LoosePolygons.of_pairs ?_ ?_ ?_ ?_
  · intro g hg
    obtain ⟨i, rfl⟩ := edge_eq hg
    fin_cases i <;> norm_num [edge, Moderate, slope, Geom.Seg.start, Geom.Seg.stop]
  · intro g h hg hh
    obtain ⟨i, rfl⟩ := edge_eq hg
    left
    fin_cases i <;> norm_num [edge, slope, Geom.Seg.start, Geom.Seg.stop]
  · intro i j k a b c t n1 n2 n3 ha hb hc m1 m2
    obtain ⟨i', rfl, rfl⟩ := edge_at ha
    obtain ⟨j', rfl, rfl⟩ := edge_at hb
    obtain ⟨k', rfl, rfl⟩ := edge_at hc
    have h1 : i' ≠ j' := fun h => n1 (by rw [h])
    have h2 : j' ≠ k' := fun h => n2 (by rw [h])
    have h3 : i' ≠ k' := fun h => n3 (by rw [h])
    have g1 := meets h1 m1
    have g2 := meets h2 m2
    rcases g1 with ⟨q1, g1⟩ | ⟨q1, q1', g1⟩ | ⟨q1, g1⟩ <;> rcases g2 with ⟨q2, g2⟩ | ⟨q2, q2', g2⟩ | ⟨q2, g2⟩ <;>
      first
      | linarith
      | (clear n1 n2 n3 ha hb hc m1 m2; omega)
  · intro i j a b t n hv ha hb m
    obtain ⟨i', rfl, rfl⟩ := edge_at ha
    obtain ⟨j', rfl, rfl⟩ := edge_at hb
    have h1 : i' ≠ j' := fun h => n (by rw [h])
    have ht : t = 0 ∨ t = 10 ∨ t = 4 ∨ t = 14 := by
      obtain ⟨ps, hps, p, hp, rfl⟩ := hv
      simp only [List.mem_cons, List.not_mem_nil, or_false] at hps
      rcases hps with rfl | rfl <;> simp only [up, upsideDown, List.mem_cons, List.not_mem_nil, or_false] at hp <;> rcases hp with rfl | rfl | rfl <;> simp
    rcases meets h1 m with ⟨q, g⟩ | ⟨q, q', g⟩ | ⟨q, g⟩
    · have : t = 0 := by rcases ht with h | h | h | h <;> first | exact h | (exfalso; linarith)
      subst this
      left
      rcases g with ⟨rfl, rfl⟩ | ⟨rfl, rfl⟩ <;> exact ⟨rfl, Or.inl rfl⟩
    · exfalso; rcases ht with h | h | h | h <;> linarith
    · have : t = 14 := by rcases ht with h | h | h | h <;> first | exact h | (exfalso; linarith)
      subst this
      right
      rcases g with ⟨rfl, rfl⟩ | ⟨rfl, rfl⟩ <;> exact ⟨rfl, Or.inr rfl⟩

/-- A configuration with a tolerance of a hundredth. -/
noncomputable def cfg : Cfg := ⟨1 / 100, Classical.choose Geom.findsRoots_exists, fun i j => decide (i < j), fun _ _ => true, Sweep.firstFalse, 0, 0⟩

theorem oneFirst : OneFirst cfg.first := by
  intro i j hne
  change decide (i < j) = !decide (j < i)
  rcases Nat.lt_or_gt_of_ne hne with h | h
  · simp [h, Nat.not_lt.2 h.le]
  · simp [h, Nat.not_lt.2 h.le]

/-- Points that are clear of the edges. -/
theorem off {x z : ℝ} (h : ∀ i : Fin 4, (edge i).start.y ≤ z → z ≤ (edge i).stop.y → (∀ y, |y - z| ≤ 3 / 100 → (edge i).atY y ≤ x - 1 / 100) ∨
    ∀ y, |y - z| ≤ 3 / 100 → x + 1 / 100 ≤ (edge i).atY y) : OffEdges cfg.eps ([up] ++ [upsideDown]) x z := by
  intro n g hg
  obtain ⟨i, rfl, rfl⟩ := edge_at hg
  obtain ⟨_, _, _, _, h1, h2⟩ := hg
  change (∀ y, |y - z| ≤ 1 / 100 → _ → _ → _ ≤ x - 1 / 100) ∨ (∀ y, |y - z| ≤ 1 / 100 → _ → _ → x + 1 / 100 ≤ _)
  rcases h i h1 h2 with k | k
  · left; intro y hy _ _; exact k y (by linarith)
  · right; intro y hy _ _; exact k y (by linarith)

theorem up_wind (x z : ℝ) : windPolyline up x z = (if 0 ≤ z ∧ z < 10 ∧ z < x then 1 else 0) + (if 0 ≤ z ∧ z < 10 ∧ -z < x then -1 else 0) := by
  simp only [windPolyline, Segs.closedEdges, up, List.length_cons, List.length_nil, List.tail_cons, List.take, List.cons_append, List.nil_append, List.zip_cons_cons,
      List.zip_nil_right, Nat.reduceAdd, Nat.reduceLeDiff, if_false, List.map_cons, List.map_nil, List.sum_cons, List.sum_nil, Ex.cross_line]
  have e1 : ∀ {z : ℝ}, ¬ (10 ≤ z ∧ z < 0) := fun h => by linarith [h.1, h.2]
  have e2 : ∀ {z : ℝ}, ¬ (10 ≤ z ∧ z < 10) := fun h => by linarith [h.1, h.2]
  have k1 : ∀ p : Prop, ¬ (10 ≤ z ∧ z < 0 ∧ p) := fun p h => e1 ⟨h.1, h.2.1⟩
  have k2 : ∀ p : Prop, ¬ (10 ≤ z ∧ z < 10 ∧ p) := fun p h => e2 ⟨h.1, h.2.1⟩
  simp only [k1, k2, if_false]
  norm_num

theorem down_wind (x z : ℝ) : windPolyline upsideDown x z = (if 4 ≤ z ∧ z < 14 ∧ 14 - z < x then 1 else 0) + (if 4 ≤ z ∧ z < 14 ∧ z - 14 < x then -1 else 0) := by
  simp only [windPolyline, Segs.closedEdges, upsideDown, List.length_cons, List.length_nil, List.tail_cons, List.take, List.cons_append, List.nil_append, List.zip_cons_cons,
      List.zip_nil_right, Nat.reduceAdd, Nat.reduceLeDiff, if_false, List.map_cons, List.map_nil, List.sum_cons, List.sum_nil, Ex.cross_line]
  have e1 : ∀ {z : ℝ}, ¬ (14 ≤ z ∧ z < 4) := fun h => by linarith [h.1, h.2]
  have e2 : ∀ {z : ℝ}, ¬ (4 ≤ z ∧ z < 4) := fun h => by linarith [h.1, h.2]
  have k1 : ∀ p : Prop, ¬ (14 ≤ z ∧ z < 4 ∧ p) := fun p h => e1 ⟨h.1, h.2.1⟩
  have k2 : ∀ p : Prop, ¬ (4 ≤ z ∧ z < 4 ∧ p) := fun p h => e2 ⟨h.1, h.2.1⟩
  simp only [k1, k2, if_false]
  have a1 : (10 : ℝ) + (z - 4) / (14 - 4) * (0 - 10) = 14 - z := by ring
  have a2 : (-10 : ℝ) + (z - 4) / (14 - 4) * (0 - -10) = z - 14 := by ring
  rw [a1, a2]
  norm_num

/-- The exclusive or of two triangles that cross. The operation returns. To the left of the first triangle and above the crossing there is the second triangle,
below the crossing there is the first one and to the left of it nothing, and in the middle there are both. -/
theorem xor_of_triangles : ∃ N t' cs, (∀ fuel, N ≤ fuel → polylineOp cfg [up] [upsideDown] .nonZero .xor fuel = .ok (buildPolylines [up] [upsideDown]).1 t' cs) ∧
    windContours (buildPolylines [up] [upsideDown]).1 t' cs (-7) 5 = 1 ∧ windContours (buildPolylines [up] [upsideDown]).1 t' cs (-7) 9 = 1 ∧
    windContours (buildPolylines [up] [upsideDown]).1 t' cs 0 7 = 0 ∧ windContours (buildPolylines [up] [upsideDown]).1 t' cs (-8) 7 = 0 := by
  obtain ⟨N, t', cs, h1, h2⟩ := C81_polygons (cfg := cfg) (as := [up]) (bs := [upsideDown]) (by norm_num [cfg]) Ex.searches
    (Classical.choose_spec Geom.findsRoots_exists) oneFirst loose .nonZero .xor
  have side : ∀ {x z : ℝ}, (∀ i : Fin 4, (edge i).atY z + 1 / 2 ≤ x ∨ x + 1 / 2 ≤ (edge i).atY z) → OffEdges cfg.eps ([up] ++ [upsideDown]) x z := by
    intro x z h
    refine off fun i _ _ => ?_
    have hi := h i
    rcases hi with hi | hi
    · left; intro y hy; rw [abs_le] at hy
      fin_cases i <;> simp only [Fin.zero_eta, Fin.mk_one, Fin.reduceFinMk, at0, at1, at2, at3] at hi ⊢ <;> linarith
    · right; intro y hy; rw [abs_le] at hy
      fin_cases i <;> simp only [Fin.zero_eta, Fin.mk_one, Fin.reduceFinMk, at0, at1, at2, at3] at hi ⊢ <;> linarith
  have clear : ∀ {x z : ℝ}, ((-z) + 1 / 2 ≤ x ∨ x + 1 / 2 ≤ -z) → (z + 1 / 2 ≤ x ∨ x + 1 / 2 ≤ z) → ((z - 14) + 1 / 2 ≤ x ∨ x + 1 / 2 ≤ z - 14) →
      ((14 - z) + 1 / 2 ≤ x ∨ x + 1 / 2 ≤ 14 - z) → OffEdges cfg.eps ([up] ++ [upsideDown]) x z := by
    intro x z g0 g1 g2 g3
    refine side fun i => ?_
    fin_cases i <;> simp only [Fin.zero_eta, Fin.mk_one, Fin.reduceFinMk, at0, at1, at2, at3] <;> assumption
  refine ⟨N, t', cs, h1, ?_, ?_, ?_, ?_⟩
  · refine (h2 (-7) 5 (clear ?_ ?_ ?_ ?_)).1 ?_ <;> norm_num
    rw [up_wind, down_wind]
    norm_num [Combine, InShape]
  · refine (h2 (-7) 9 (clear ?_ ?_ ?_ ?_)).1 ?_ <;> norm_num
    rw [up_wind, down_wind]
    norm_num [Combine, InShape]
  · refine (h2 0 7 (clear ?_ ?_ ?_ ?_)).2 ?_ <;> norm_num
    rw [up_wind, down_wind]
    norm_num [Combine, InShape]
  · refine (h2 (-8) 7 (clear ?_ ?_ ?_ ?_)).2 ?_ <;> norm_num
    rw [up_wind, down_wind]
    norm_num [Combine, InShape]

end Cross

end Verif.Full
