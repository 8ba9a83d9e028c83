import Verif.Full.Redraw

/-!
# C102: the region of the result moves with the input

The comparisons, tolerances and the layout are not invariant under translations (see C40), but the region of the result is.
-/

namespace Verif.Full
open Verif.Segs (Segments PathEl)
open Verif.Curve Verif.BinOp

/-- The point moved by `(v, w)`. -/
def shiftPt (v w : ℝ) (p : Segs.Pt ℝ) : Segs.Pt ℝ := ⟨p.x + v, p.y + w⟩

/-- The polygons moved by `(v, w)`. -/
def shift (v w : ℝ) (pss : List (List (Segs.Pt ℝ))) : List (List (Segs.Pt ℝ)) := pss.map fun ps => ps.map (shiftPt v w)

/-! ## Segments -/

/-- `g'` is the straight line `g` moved by `(v, w)`. -/
structure Moved (v w : ℝ) (g g' : Geom.Seg) : Prop where
  line : Line g
  line' : Line g'
  start : g'.start = ⟨g.start.x + v, g.start.y + w⟩
  stop : g'.stop = ⟨g.stop.x + v, g.stop.y + w⟩

section
variable {v w : ℝ} {a a' b b' : Geom.Seg}

theorem Moved.slope (h : Moved v w a a') : slope a' = slope a := by
  simp only [Full.slope, h.start, h.stop]
  congr 1 <;> ring

theorem Moved.atY (h : Moved v w a a') (y : ℝ) : a'.atY y = a.atY (y - w) + v := by
  rw [h.line.atY_eq, h.line'.atY_eq, h.slope, h.start]
  ring

theorem LeftOf.moved (ha : Moved v w a a') (hb : Moved v w b b') (h : LeftOf a' b') : LeftOf a b := by
  obtain ⟨t, h1, h2, h3⟩ := h
  rw [ha.start, ha.stop] at h1
  rw [hb.start, hb.stop] at h2
  rw [ha.atY, hb.atY] at h3
  exact ⟨t - w, ⟨by linarith [h1.1], by linarith [h1.2]⟩, ⟨by linarith [h2.1], by linarith [h2.2]⟩, by linarith⟩

theorem Separated.moved {eps : ℝ} (ha : Moved v w a a') (hb : Moved v w b b') (h : Separated eps a b) : Separated eps a' b' := by
  have e1 : max a'.start.y b'.start.y = max a.start.y b.start.y + w := by rw [ha.start, hb.start, max_add_add_right]
  have e2 : min a'.stop.y b'.stop.y = min a.stop.y b.stop.y + w := by rw [ha.stop, hb.stop, min_add_add_right]
  unfold Separated at h ⊢
  rw [e1, e2]
  rcases h with ⟨y, h1, h2, h3⟩ | ⟨h1, h2⟩
  · left
    refine ⟨y + w, by linarith, by linarith, fun y0 y1 k1 k2 k3 k4 k5 k6 => ?_⟩
    rw [ha.start] at k1
    rw [ha.stop] at k2
    rw [hb.start] at k3
    rw [hb.stop] at k4
    have := h3 (y0 - w) (y1 - w) (by linarith) (by linarith) (by linarith) (by linarith) (by rw [show y0 - w - y = y0 - (y + w) by ring]; exact k5)
      (by rw [show y1 - w - y = y1 - (y + w) by ring]; exact k6)
    rw [ha.atY, hb.atY]
    linarith
  · right
    refine ⟨by rw [h1], ?_⟩
    rw [ha.atY, hb.atY, add_sub_cancel_right]
    linarith

theorem Quiet.moved {eps : ℝ} (ha : Moved v w a a') (hb : Moved v w b b') (h : Quiet eps a b) : Quiet eps a' b' :=
  ⟨fun k => ⟨fun k' => (h.1 (k.moved ha hb)).1 (k'.moved hb ha), (h.1 (k.moved ha hb)).2.moved ha hb⟩,
    fun k => ⟨fun k' => (h.2 (k.moved hb ha)).1 (k'.moved ha hb), (h.2 (k.moved hb ha)).2.moved hb ha⟩⟩

theorem Meet.moved {eps t : ℝ} (ha : Moved v w a a') (hb : Moved v w b b') (h : Meet eps t a' b') : Meet eps (t - w) a b := by
  obtain ⟨y0, y1, h1, h2, h3, h4, h5⟩ := h
  rw [ha.start, ha.stop] at h1
  rw [hb.start, hb.stop] at h2
  rw [ha.atY, hb.atY] at h5
  exact ⟨y0 - w, y1 - w, ⟨by linarith [h1.1], by linarith [h1.2]⟩, ⟨by linarith [h2.1], by linarith [h2.2]⟩, by rwa [sub_sub_sub_cancel_right],
    by rwa [sub_sub_sub_cancel_right], by rwa [add_sub_add_right_eq_sub] at h5⟩

theorem Share.moved {t : ℝ} (ha : Moved v w a a') (hb : Moved v w b b') (h : Share (t - w) a b) : Share t a' b' := by
  unfold Share at h ⊢
  rw [ha.start, ha.stop, hb.start, hb.stop]
  rcases h with ⟨h1, h2⟩ | ⟨h1, h2⟩
  · refine .inl ⟨by dsimp only; linarith, ?_⟩
    rcases h2 with h2 | h2 <;> simp [h2]
  · refine .inr ⟨by dsimp only; linarith, ?_⟩
    rcases h2 with h2 | h2 <;> simp [h2]

end

/-! ## Polygons -/

theorem closedEdges_shift (v w : ℝ) (ps : List (Segs.Pt ℝ)) :
    Segs.closedEdges (ps.map (shiftPt v w)) = (Segs.closedEdges ps).map fun e => (shiftPt v w e.1, shiftPt v w e.2) := by
  unfold Segs.closedEdges
  rw [List.length_map]
  split_ifs
  · rfl
  · rw [← List.map_tail, ← List.map_take, ← List.map_append, List.zip_map]
    rfl

theorem edges_shift (v w : ℝ) (pss : List (List (Segs.Pt ℝ))) : edges (shift v w pss) = (edges pss).map fun e => (shiftPt v w e.1, shiftPt v w e.2) := by
  unfold edges shift
  rw [List.flatMap_map, List.map_flatMap]
  simp only [closedEdges_shift]

theorem edgeAt_shift {v w t : ℝ} {pss : List (List (Segs.Pt ℝ))} {i : Nat} {g' : Geom.Seg} (h : EdgeAt (shift v w pss) t i g') :
    ∃ g, EdgeAt pss (t - w) i g ∧ Moved v w g g' := by
  obtain ⟨e', h1, h2, rfl, h3, h4⟩ := h
  rw [edges_shift, List.getElem?_map] at h1
  obtain ⟨⟨p, q⟩, h0, rfl⟩ := Option.map_eq_some_iff.1 h1
  simp only [shiftPt, ne_eq, add_left_inj] at h2
  have hm : Moved v w (down (p, q)) (down (shiftPt v w p, shiftPt v w q)) := by
    unfold down
    simp only [shiftPt, add_lt_add_iff_right]
    split_ifs with hl
    · exact ⟨⟨_, _, rfl, hl⟩, ⟨_, _, rfl, by simpa [pt] using hl⟩, rfl, rfl⟩
    · have hl' : q.y < p.y := lt_of_le_of_ne (not_lt.1 hl) (Ne.symm h2)
      exact ⟨⟨_, _, rfl, hl'⟩, ⟨_, _, rfl, by simpa [pt] using hl'⟩, rfl, rfl⟩
  rw [hm.start] at h3
  rw [hm.stop] at h4
  exact ⟨_, ⟨(p, q), h0, h2, rfl, by linarith, by linarith⟩, hm⟩

theorem edge_shift {v w : ℝ} {pss : List (List (Segs.Pt ℝ))} {g' : Geom.Seg} (h : Edge (shift v w pss) g') : ∃ g, Edge pss g ∧ Moved v w g g' := by
  obtain ⟨ps', h1, e', h2, h3, h4⟩ := h
  obtain ⟨ps, k1, rfl⟩ := List.mem_map.1 h1
  rw [closedEdges_shift] at h2
  obtain ⟨⟨p, q⟩, k2, rfl⟩ := List.mem_map.1 h2
  rcases h3 with rfl | rfl
  · have hl : p.y < q.y := by simpa [Geom.Seg.start, Geom.Seg.stop, pt, shiftPt] using h4
    exact ⟨.line (pt p) (pt q), ⟨ps, k1, _, k2, .inl rfl, hl⟩, ⟨_, _, rfl, hl⟩, ⟨_, _, rfl, h4⟩, rfl, rfl⟩
  · have hl : q.y < p.y := by simpa [Geom.Seg.start, Geom.Seg.stop, pt, shiftPt] using h4
    exact ⟨.line (pt q) (pt p), ⟨ps, k1, _, k2, .inr rfl, hl⟩, ⟨_, _, rfl, hl⟩, ⟨_, _, rfl, h4⟩, rfl, rfl⟩

/-- General position does not change if the polygons are moved, as long as they stay at moderate coordinates. -/
theorem LoosePolygons.shift {eps v w : ℝ} {pss : List (List (Segs.Pt ℝ))} (h : LoosePolygons eps pss) (hm : ∀ g, Edge (shift v w pss) g → Moderate eps g) :
    LoosePolygons eps (shift v w pss) := by
  refine ⟨hm, ?_, ?_, ?_⟩
  · intro a' b' ha' hb'
    obtain ⟨a, ha, ma⟩ := edge_shift ha'
    obtain ⟨b, hb, mb⟩ := edge_shift hb'
    have := h.upright a b ha hb
    unfold Upright at this ⊢
    rwa [ma.slope, mb.slope]
  · intro i j k a' b' c' t n ha' hb' hc' hq hch hmeet
    have hch' : EdgeChain eps pss (t - w) i j := by
      unfold EdgeChain at hch ⊢
      clear hq n hb'
      induction hch with
      | refl => exact .refl
      | tail _ h2 ih =>
        obtain ⟨p', q', h1, h2, h3⟩ := h2
        obtain ⟨p, hp, mp⟩ := edgeAt_shift h1
        obtain ⟨q, hq, mq⟩ := edgeAt_shift h2
        exact ih.tail ⟨p, q, hp, hq, h3.moved mp mq⟩
    obtain ⟨a, ha, ma⟩ := edgeAt_shift ha'
    obtain ⟨b, hb, mb⟩ := edgeAt_shift hb'
    obtain ⟨c, hc, mc⟩ := edgeAt_shift hc'
    exact h.alone i j k a b c (t - w) n ha hb hc (fun k => hq (k.moved ma mb)) hch' (hmeet.moved ma mc)
  · rintro i j a' b' t n hq ⟨ps', h1, p', h2, h3⟩ ha' hb' hmeet
    obtain ⟨ps, k1, rfl⟩ := List.mem_map.1 h1
    obtain ⟨p, k2, rfl⟩ := List.mem_map.1 h2
    obtain ⟨a, ha, ma⟩ := edgeAt_shift ha'
    obtain ⟨b, hb, mb⟩ := edgeAt_shift hb'
    refine (h.ends i j a b (t - w) n (fun k => hq (k.moved ma mb)) ⟨ps, k1, p, k2, ?_⟩ ha hb (hmeet.moved ma mb)).moved ma mb
    simp only [shiftPt] at h3
    linarith

theorem Distant.shift {eps v w x z : ℝ} {pss : List (List (Segs.Pt ℝ))} (h : Distant eps pss x z) : Distant eps (shift v w pss) (x + v) (z + w) := by
  intro ps' h1 e' h2 u u0 u1
  obtain ⟨ps, k1, rfl⟩ := List.mem_map.1 h1
  rw [closedEdges_shift] at h2
  obtain ⟨e, k2, rfl⟩ := List.mem_map.1 h2
  have := h ps k1 e k2 u u0 u1
  simp only [shiftPt]
  rw [show x + v - ((1 - u) * (e.1.x + v) + u * (e.2.x + v)) = x - ((1 - u) * e.1.x + u * e.2.x) by ring,
    show z + w - ((1 - u) * (e.1.y + w) + u * (e.2.y + w)) = z - ((1 - u) * e.1.y + u * e.2.y) by ring]
  exact this

theorem wind_shift (v w : ℝ) (ps : List (Segs.Pt ℝ)) (x z : ℝ) : windPolyline (ps.map (shiftPt v w)) (x + v) (z + w) = windPolyline ps x z := by
  unfold windPolyline
  rw [closedEdges_shift, List.map_map]
  congr 1
  refine List.map_congr_left fun e _ => ?_
  simp only [Function.comp_apply, Ex.cross_line, shiftPt, add_le_add_iff_right, add_lt_add_iff_right, add_sub_add_right_eq_sub]
  have k : ∀ a b x : ℝ, a + v + b < x + v ↔ a + b < x := fun a b x => ⟨fun h => by linarith, fun h => by linarith⟩
  simp only [k]

theorem winds_shift (v w : ℝ) (pss : List (List (Segs.Pt ℝ))) (x z : ℝ) :
    ((shift v w pss).map fun ps => windPolyline ps (x + v) (z + w)).sum = (pss.map fun ps => windPolyline ps x z).sum := by
  unfold shift
  rw [List.map_map]
  congr 1
  exact List.map_congr_left fun ps _ => wind_shift v w ps x z

/-! ## The result -/

variable {cfg : Cfg}

/-- **C102.** A boolean operation on polygons in general position, and on the same polygons moved by `(v, w)`: both return, and away from the edges the region of the second is that
of the first, moved by `(v, w)`. -/
theorem C102_moved {as bs : List (List (Segs.Pt ℝ))} (v w : ℝ) (again again' : Nat → Nat → Bool) (he : 0 < cfg.eps) (hpp : Searches cfg.pp) (hf : OneFirst cfg.first)
    (hP : LoosePolygons cfg.eps (as ++ bs)) (hB : BeyondCorners cfg (as ++ bs)) (hm : ∀ g, Edge (shift v w (as ++ bs)) g → Moderate cfg.eps g)
    (hB' : BeyondCorners cfg (shift v w (as ++ bs))) (rule : FillRule) (op : Op) :
    ∃ N out out', (∀ fuel, N ≤ fuel → polylineOpPaths cfg again as bs rule op fuel = .ok out ∧
        polylineOpPaths cfg again' (shift v w as) (shift v w bs) rule op fuel = .ok out') ∧
      RightPaths cfg.eps as bs rule op out ∧ ∀ x z, Distant cfg.eps (as ++ bs) x z → windOut out' (x + v) (z + w) = windOut out x z := by
  have es : shift v w (as ++ bs) = shift v w as ++ shift v w bs := List.map_append
  obtain ⟨N, out, h1, h2⟩ := C94_crossing (cfg := cfg) again he hpp hf hP hB rule op
  obtain ⟨N', out', h1', h2'⟩ := C94_crossing (cfg := cfg) again' he hpp hf (by rw [← es]; exact hP.shift hm) (by rw [← es]; exact hB') rule op
  refine ⟨max N N', out, out', fun fuel h => ⟨h1 fuel (by omega), h1' fuel (by omega)⟩, h2, fun x z hx => ?_⟩
  have k := h2.winding x z hx
  have k' := h2'.winding (x + v) (z + w) (by rw [← es]; exact hx.shift)
  rw [winds_shift, winds_shift] at k'
  by_cases hc : Combine op (InShape rule (as.map fun ps => windPolyline ps x z).sum) (InShape rule (bs.map fun ps => windPolyline ps x z).sum)
  · rw [k.1 hc, k'.1 hc]
  · rw [k.2 hc, k'.2 hc]

/-! ## Example -/

/-- The intersection of the triangles that cross, moved by `(3, 1)`: it winds around `(3, 8)` and not around `(3, 3)`. -/
theorem Cross.moved : ∃ N out',
    (∀ fuel, N ≤ fuel → polylineOpPaths Cross.cfg' (fun _ _ => true) (shift 3 1 [Cross.up]) (shift 3 1 [Cross.upsideDown]) .nonZero .intersection fuel = .ok out') ∧
    windOut out' (0 + 3) (7 + 1) = 1 ∧ windOut out' (0 + 3) (2 + 1) = 0 := by
  have hm : ∀ g, Edge (shift 3 1 ([Cross.up] ++ [Cross.upsideDown])) g → Moderate (1 / 100) g := by
    intro g' hg'
    obtain ⟨g, hg, m⟩ := edge_shift hg'
    obtain ⟨i, rfl⟩ := Cross.edge_eq hg
    unfold Moderate
    rw [m.start, m.stop, m.slope]
    fin_cases i <;> norm_num [Cross.edge, Full.slope, Geom.Seg.start, Geom.Seg.stop]
  have hB' : BeyondCorners Cross.cfg' (shift 3 1 ([Cross.up] ++ [Cross.upsideDown])) := by
    intro ps' hps' e' he'
    obtain ⟨ps, hps, rfl⟩ := List.mem_map.1 hps'
    rw [closedEdges_shift] at he'
    obtain ⟨e, he, rfl⟩ := List.mem_map.1 he'
    simp only [List.cons_append, List.nil_append, List.mem_cons, List.not_mem_nil, or_false] at hps
    rcases hps with rfl | rfl
    all_goals
      simp [Segs.closedEdges, Cross.up, Cross.upsideDown, List.mem_cons] at he
      rcases he with rfl | rfl | rfl <;> norm_num [Cross.cfg', shiftPt]
  obtain ⟨N, out, out', h1, hr, h2⟩ := C102_moved (cfg := Cross.cfg') (as := [Cross.up]) (bs := [Cross.upsideDown]) 3 1 (fun _ _ => true) (fun _ _ => true)
    (by norm_num [Cross.cfg', Cross.cfg]) Ex.searches Cross.oneFirst Cross.loose Cross.beyond hm hB' .nonZero .intersection
  have d7 := Cross.distant_middle (z := 7) (by simp)
  have d2 := Cross.distant_middle (z := 2) (by simp)
  refine ⟨N, out', fun fuel h => (h1 fuel h).2, ?_, ?_⟩
  · rw [h2 0 7 d7]
    refine (hr.winding 0 7 d7).1 ?_
    simp only [Combine, InShape, List.map_cons, List.map_nil, List.sum_cons, List.sum_nil, Cross.up_wind, Cross.down_wind]
    norm_num
  · rw [h2 0 2 d2]
    refine (hr.winding 0 2 d2).2 ?_
    simp only [Combine, InShape, List.map_cons, List.map_nil, List.sum_cons, List.sum_nil, Cross.up_wind, Cross.down_wind]
    norm_num

end Verif.Full
