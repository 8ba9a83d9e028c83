import Verif.Full.Mirror
import Verif.Full.Box

/-!
# C104: the region of the input turned upside down is the region turned upside down

The sweep goes from top to bottom; the region of the result does not depend on it.
-/

namespace Verif.Full
open Verif.Segs (Segments PathEl)
open Verif.Curve Verif.BinOp

/-- The point on the other side of the horizontal axis. -/
def turnPt (p : Segs.Pt ℝ) : Segs.Pt ℝ := ⟨p.x, -p.y⟩

/-- The polygons turned upside down. -/
def turn (pss : List (List (Segs.Pt ℝ))) : List (List (Segs.Pt ℝ)) := pss.map fun ps => ps.map turnPt

theorem closedEdges_turn (ps : List (Segs.Pt ℝ)) : Segs.closedEdges (ps.map turnPt) = (Segs.closedEdges ps).map fun e => (turnPt e.1, turnPt e.2) := by
  unfold Segs.closedEdges
  rw [List.length_map]
  split_ifs
  · rfl
  · rw [← List.map_tail, ← List.map_take, ← List.map_append, List.zip_map]
    rfl

theorem BeyondCorners.turn {cfg : Cfg} {pss : List (List (Segs.Pt ℝ))} (h : BeyondCorners cfg pss) : BeyondCorners cfg (turn pss) := by
  intro ps' h1 e' h2
  obtain ⟨ps, k1, rfl⟩ := List.mem_map.1 h1
  rw [closedEdges_turn] at h2
  obtain ⟨e, k2, rfl⟩ := List.mem_map.1 h2
  exact h ps k1 e k2

theorem Distant.turn {eps x z : ℝ} {pss : List (List (Segs.Pt ℝ))} (h : Distant eps pss x z) : Distant eps (turn pss) x (-z) := by
  intro ps' h1 e' h2 u u0 u1
  obtain ⟨ps, k1, rfl⟩ := List.mem_map.1 h1
  rw [closedEdges_turn] at h2
  obtain ⟨e, k2, rfl⟩ := List.mem_map.1 h2
  have := h ps k1 e k2 u u0 u1
  simp only [turnPt]
  rw [show -z - ((1 - u) * -e.1.y + u * -e.2.y) = -(z - ((1 - u) * e.1.y + u * e.2.y)) by ring, abs_neg]
  exact this

theorem cross_turn {x z : ℝ} {p q : Segs.Pt ℝ} (hp : p.y ≠ z) (hq : q.y ≠ z) : cross (.line (turnPt p) (turnPt q)) x (-z) = - cross (.line p q) x z := by
  have f : ∀ {p q : Segs.Pt ℝ}, p.y ≠ z → q.y ≠ z → ((-p.y ≤ -z ∧ -z < -q.y ∧ p.x + (-z - -p.y) / (-q.y - -p.y) * (q.x - p.x) < x) ↔
      (q.y ≤ z ∧ z < p.y ∧ q.x + (z - q.y) / (p.y - q.y) * (p.x - q.x) < x)) := by
    intro p q hp hq
    have e : q.y < z → z < p.y → p.x + (-z - -p.y) / (-q.y - -p.y) * (q.x - p.x) = q.x + (z - q.y) / (p.y - q.y) * (p.x - q.x) := by
      intro h1 h2
      have d1 : -q.y - -p.y ≠ 0 := by intro h; linarith
      have d2 : p.y - q.y ≠ 0 := by intro h; linarith
      field_simp
      ring
    constructor
    · rintro ⟨h1, h2, h3⟩
      have k1 : z < p.y := lt_of_le_of_ne (neg_le_neg_iff.1 h1) (Ne.symm hp)
      have k2 : q.y < z := neg_lt_neg_iff.1 h2
      exact ⟨k2.le, k1, by rw [← e k2 k1]; exact h3⟩
    · rintro ⟨h1, h2, h3⟩
      have k2 : q.y < z := lt_of_le_of_ne h1 hq
      exact ⟨by linarith, by linarith, by rw [e k2 h2]; exact h3⟩
  rw [Ex.cross_line, Ex.cross_line]
  simp only [turnPt]
  simp only [f hp hq, f hq hp]
  by_cases h1 : q.y ≤ z ∧ z < p.y ∧ q.x + (z - q.y) / (p.y - q.y) * (p.x - q.x) < x <;>
    by_cases h2 : p.y ≤ z ∧ z < q.y ∧ p.x + (z - p.y) / (q.y - p.y) * (q.x - p.x) < x
  · linarith [h1.1, h1.2.1, h2.1, h2.2.1]
  all_goals simp [h1, h2]

theorem wind_turn {x z : ℝ} {ps : List (Segs.Pt ℝ)} (h : ∀ p ∈ ps, p.y ≠ z) : windPolyline (ps.map turnPt) x (-z) = - windPolyline ps x z := by
  have he : ∀ e ∈ Segs.closedEdges ps, e.1.y ≠ z ∧ e.2.y ≠ z := fun e he => ⟨h _ (closedEdges_mem he).2.1, h _ (closedEdges_mem he).2.2⟩
  unfold windPolyline
  rw [closedEdges_turn, List.map_map]
  generalize Segs.closedEdges ps = es at he ⊢
  induction es with
  | nil => rfl
  | cons e es ih =>
    rw [List.map_cons, List.map_cons, List.sum_cons, List.sum_cons, ih fun e' h' => he e' (by simp [h']), neg_add]
    congr 1
    exact cross_turn (he e (by simp)).1 (he e (by simp)).2

theorem encloses_turn {x z : ℝ} {as : List (List (Segs.Pt ℝ))} (h : ¬ VertexAt as z) (rule : FillRule) :
    InShape rule ((turn as).map fun ps => windPolyline ps x (-z)).sum ↔ InShape rule (as.map fun ps => windPolyline ps x z).sum := by
  have e : ((turn as).map fun ps => windPolyline ps x (-z)).sum = - (as.map fun ps => windPolyline ps x z).sum := by
    unfold turn
    rw [List.map_map]
    induction as with
    | nil => simp
    | cons ps as ih =>
      rw [List.map_cons, List.map_cons, List.sum_cons, List.sum_cons, ih fun ⟨q, hq, k⟩ => h ⟨q, by simp [hq], k⟩, neg_add]
      congr 1
      exact wind_turn fun p hp k => h ⟨ps, by simp, p, hp, k⟩
  rw [e]
  cases rule <;> simp [InShape]

variable {cfg : Cfg}

/-- **C104.** A boolean operation on polygons, and on the same polygons turned upside down, both in general position: both return, and away from the edges and the heights of the
vertices the region of the second is that of the first, turned upside down. -/
theorem C104_turned {as bs : List (List (Segs.Pt ℝ))} (again again' : Nat → Nat → Bool) (he : 0 < cfg.eps) (hpp : Searches cfg.pp) (hf : OneFirst cfg.first)
    (hP : LoosePolygons cfg.eps (as ++ bs)) (hP' : LoosePolygons cfg.eps (turn (as ++ bs))) (hB : BeyondCorners cfg (as ++ bs)) (rule : FillRule) (op : Op) :
    ∃ N out out', (∀ fuel, N ≤ fuel → polylineOpPaths cfg again as bs rule op fuel = .ok out ∧ polylineOpPaths cfg again' (turn as) (turn bs) rule op fuel = .ok out') ∧
      RightPaths cfg.eps as bs rule op out ∧ ∀ x z, Distant cfg.eps (as ++ bs) x z → ¬ VertexAt (as ++ bs) z → windOut out' x (-z) = windOut out x z := by
  have es : turn (as ++ bs) = turn as ++ turn bs := List.map_append
  obtain ⟨N, out, h1, h2⟩ := C94_crossing (cfg := cfg) again he hpp hf hP hB rule op
  obtain ⟨N', out', h1', h2'⟩ := C94_crossing (cfg := cfg) again' he hpp hf (by rw [← es]; exact hP') (by rw [← es]; exact hB.turn) rule op
  refine ⟨max N N', out, out', fun fuel h => ⟨h1 fuel (by omega), h1' fuel (by omega)⟩, h2, fun x z hx hv => ?_⟩
  have k := h2.winding x z hx
  have k' := h2'.winding x (-z) (by rw [← es]; exact hx.turn)
  rw [propext (encloses_turn (as := as) (fun ⟨p, hp, k⟩ => hv ⟨p, List.mem_append_left _ hp, k⟩) rule),
    propext (encloses_turn (as := bs) (fun ⟨p, hp, k⟩ => hv ⟨p, List.mem_append_right _ hp, k⟩) rule)] at k'
  by_cases hc : Combine op (InShape rule (as.map fun ps => windPolyline ps x z).sum) (InShape rule (bs.map fun ps => windPolyline ps x z).sum)
  · rw [k.1 hc, k'.1 hc]
  · rw [k.2 hc, k'.2 hc]

/-! ## Example -/

/-- The triangles that cross, turned upside down, are the same triangles in the other order, moved. -/
theorem Cross.turn_loose : LoosePolygons (1 / 100) (turn ([Cross.up] ++ [Cross.upsideDown])) := by
  have hm : ∀ g, Edge (shift 0 (-14) ([Cross.upsideDown] ++ [Cross.up])) g → Moderate (1 / 100) g := by
    intro g' hg'
    obtain ⟨g, hg, m⟩ := edge_shift hg'
    obtain ⟨i, rfl⟩ := Cross.edge_eq (edge_exchange hg)
    unfold Moderate
    rw [m.start, m.stop, m.slope]
    fin_cases i <;> norm_num [Cross.edge, Full.slope, Geom.Seg.start, Geom.Seg.stop]
  have h1 : LoosePolygons (1 / 100) (shift 0 (-14) ([Cross.upsideDown] ++ [Cross.up])) := (LoosePolygons.exchange (as := [Cross.up]) (bs := [Cross.upsideDown]) Cross.loose).shift hm
  have h2 : SameShape .nonZero (shift 0 (-14) ([Cross.upsideDown] ++ [Cross.up])) (turn ([Cross.up] ++ [Cross.upsideDown])) := by
    refine ⟨true, _, .refl _, .cons ⟨true, ⟨0, ?_⟩, fun _ => rfl⟩ (.cons ⟨true, ⟨0, ?_⟩, fun _ => rfl⟩ .nil)⟩
    · simp only [Cross.up, Cross.upsideDown, List.map_cons, List.map_nil, turnPt, shiftPt, List.rotate_zero, if_true, List.reverse_cons, List.reverse_nil, List.nil_append, List.cons_append]
      norm_num
    · simp only [Cross.up, Cross.upsideDown, List.map_cons, List.map_nil, turnPt, shiftPt, List.rotate_zero, if_true, List.reverse_cons, List.reverse_nil, List.nil_append, List.cons_append]
      norm_num
  exact h2.lines.loose h1

/-- The intersection winds around `(0, -7)` and not around `(0, -2)`. -/
theorem Cross.turned : ∃ N out',
    (∀ fuel, N ≤ fuel → polylineOpPaths Cross.cfg' (fun _ _ => true) (turn [Cross.up]) (turn [Cross.upsideDown]) .nonZero .intersection fuel = .ok out') ∧
    windOut out' 0 (-7) = 1 ∧ windOut out' 0 (-2) = 0 := by
  obtain ⟨N, out, out', h1, hr, h2⟩ := C104_turned (cfg := Cross.cfg') (as := [Cross.up]) (bs := [Cross.upsideDown]) (fun _ _ => true) (fun _ _ => true)
    (by norm_num [Cross.cfg', Cross.cfg]) Ex.searches Cross.oneFirst Cross.loose Cross.turn_loose Cross.beyond .nonZero .intersection
  have d7 := Cross.distant_middle (z := 7) (by simp)
  have d2 := Cross.distant_middle (z := 2) (by simp)
  have hv : ∀ z : ℝ, z = 7 ∨ z = 2 → ¬ VertexAt ([Cross.up] ++ [Cross.upsideDown]) z := by
    rintro z hz ⟨ps, hps, p, hp, k⟩
    simp only [List.cons_append, List.nil_append, List.mem_cons, List.not_mem_nil, or_false] at hps
    rcases hps with rfl | rfl
    all_goals
      simp only [Cross.up, Cross.upsideDown, List.mem_cons, List.not_mem_nil, or_false] at hp
      rcases hp with rfl | rfl | rfl <;> rcases hz with rfl | rfl <;> norm_num at k
  refine ⟨N, out', fun fuel h => (h1 fuel h).2, ?_, ?_⟩
  · rw [h2 0 7 d7 (hv 7 (by simp))]
    refine (hr.winding 0 7 d7).1 ?_
    simp only [Combine, InShape, List.map_cons, List.map_nil, List.sum_cons, List.sum_nil, Cross.up_wind, Cross.down_wind]
    norm_num
  · rw [h2 0 2 d2 (hv 2 (by simp))]
    refine (hr.winding 0 2 d2).2 ?_
    simp only [Combine, InShape, List.map_cons, List.map_nil, List.sum_cons, List.sum_nil, Cross.up_wind, Cross.down_wind]
    norm_num

end Verif.Full
