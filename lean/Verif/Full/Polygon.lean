import Verif.Full.Lines
import Verif.Full.Props

/-!
# Polygons

The end-to-end statements for polygons, in terms of the edges alone.
-/

namespace Verif.Full
open Verif.Segs (Segments)
open Verif.BinOp (FillRule Op BinaryWinding InShape Combine)
set_option linter.unusedSectionVars false

/-- `g` is an edge of one of the polygons that is not horizontal, going down. -/
def Edge (pss : List (List (Segs.Pt ℝ))) (g : Geom.Seg) : Prop :=
  ∃ ps ∈ pss, ∃ e ∈ Segs.closedEdges ps, (g = .line (pt e.1) (pt e.2) ∨ g = .line (pt e.2) (pt e.1)) ∧ g.start.y < g.stop.y

/-- The edges do not cross, and those that differ are clearly apart somewhere. -/
structure Polygons (eps : ℝ) (pss : List (List (Segs.Pt ℝ))) : Prop where
  nocross : ∀ g h, Edge pss g → Edge pss h → LeftOf g h → ¬ LeftOf h g
  moderate : ∀ g, Edge pss g → Moderate eps g
  upright : ∀ g h, Edge pss g → Edge pss h → Upright g h
  separated : ∀ g h, Edge pss g → Edge pss h → LeftOf g h → Separated eps g h

/-- Every segment is an edge of one of the polygons. -/
theorem segment_edge {as bs : List (List (Segs.Pt ℝ))} {i : Nat} (hlt : i < (buildPolylines as bs).1.len) :
    ∃ ps ∈ as ++ bs, ∃ e ∈ Segs.closedEdges ps, segAt (buildPolylines as bs).1 i = .line (pt e.1) (pt e.2) ∨
      segAt (buildPolylines as bs).1 i = .line (pt e.2) (pt e.1) := by
  have hm := buildPolylines_made as bs
  rw [made_len hm] at hlt
  have hget := List.getElem?_eq_getElem hlt
  have hin := List.getElem_mem hlt
  obtain ⟨o, t, ho⟩ : ∃ o t, (((as.flatMap fun ps => (Segs.closedEdges ps).map (Segs.edgeOrigin 0 1)).map fun o => (o, true)) ++
      (bs.flatMap fun ps => (Segs.closedEdges ps).map (Segs.edgeOrigin 0 1)).map fun o => (o, false))[i] = (o, t) := ⟨_, _, rfl⟩
  rw [ho] at hget hin
  obtain ⟨g, b, h1, -, h3, -⟩ := made_get hm hget
  have hseg : segAt (buildPolylines as bs).1 i = seg g := by unfold segAt; rw [h1]
  obtain ⟨ps, hps, e, he, hoe⟩ : ∃ ps ∈ as ++ bs, ∃ e ∈ Segs.closedEdges ps, o.curve = .line e.1 e.2 := by
    simp only [List.mem_append, List.mem_map, List.mem_flatMap] at hin
    rcases hin with ⟨o', ⟨ps, hps, e, he, rfl⟩, h⟩ | ⟨o', ⟨ps, hps, e, he, rfl⟩, h⟩
    · rw [Prod.mk.injEq] at h
      exact ⟨ps, List.mem_append_left _ hps, e, he, by rw [← h.1]; rfl⟩
    · rw [Prod.mk.injEq] at h
      exact ⟨ps, List.mem_append_right _ hps, e, he, by rw [← h.1]; rfl⟩
  refine ⟨ps, hps, e, he, ?_⟩
  rw [hseg]
  rw [hoe] at h3
  cases b with
  | true =>
    rw [if_pos rfl] at h3
    rw [← h3]; exact Or.inl rfl
  | false =>
    rw [if_neg (by simp)] at h3
    have : g = .line e.2 e.1 := by rw [← rev_rev g, ← h3]; rfl
    rw [this]; exact Or.inr rfl

theorem slanted_edge {as bs : List (List (Segs.Pt ℝ))} {i : Nat} (h : Slanted (buildPolylines as bs).1 i) : Edge (as ++ bs) (segAt (buildPolylines as bs).1 i) := by
  obtain ⟨ps, hps, e, he, h1⟩ := segment_edge h.1
  exact ⟨ps, hps, e, he, h1, h.2⟩

theorem Edge.line {pss : List (List (Segs.Pt ℝ))} {g : Geom.Seg} (h : Edge pss g) : Line g := by
  obtain ⟨ps, _, e, _, h, hlt⟩ := h
  rcases h with rfl | rfl <;> exact ⟨_, _, rfl, hlt⟩

theorem Polygons.nocross' {eps : ℝ} {as bs : List (List (Segs.Pt ℝ))} (h : Polygons eps (as ++ bs)) : NoCross (buildPolylines as bs).1 :=
  fun _ _ hi hj => h.nocross _ _ (slanted_edge hi) (slanted_edge hj)

theorem Polygons.apart {eps : ℝ} {as bs : List (List (Segs.Pt ℝ))} (h : Polygons eps (as ++ bs)) : Apart eps (buildPolylines as bs).1 :=
  ⟨fun _ hi => (slanted_edge hi).line, fun _ hi => h.moderate _ (slanted_edge hi), fun _ _ hi hj => h.upright _ _ (slanted_edge hi) (slanted_edge hj),
   fun _ _ hi hj => h.separated _ _ (slanted_edge hi) (slanted_edge hj)⟩

/-- C78 for polygons whose edges do not cross and are clearly apart where they differ. -/
theorem C78_polygons {cfg : Cfg} {as bs : List (List (Segs.Pt ℝ))} {s' : Segments ℝ} {t' : Topo.Topo ℝ BinaryWinding} {cs : List Contours.Contour} {rule : FillRule} {op : Op}
    {fuel : Nat} (he : 0 < cfg.eps) (hpp : Searches cfg.pp) (hsolve : Geom.FindsRoots cfg.solve) (hP : Polygons cfg.eps (as ++ bs))
    (h : polylineOp cfg as bs rule op fuel = .ok s' t' cs) {x z : ℝ} (hx : Away cfg (buildPolylines as bs).1 x z) :
    (Combine op (InShape rule (as.map fun ps => windPolyline ps x z).sum) (InShape rule (bs.map fun ps => windPolyline ps x z).sum) → windContours s' t' cs x z = 1) ∧
    (¬ Combine op (InShape rule (as.map fun ps => windPolyline ps x z).sum) (InShape rule (bs.map fun ps => windPolyline ps x z).sum) →
      windContours s' t' cs x z = 0) :=
  C78_polylines_planar he hpp hsolve h hP.nocross' (resolved_of_apart he hsolve hP.nocross' hP.apart) hx

/-! ## Non-vacuity: a triangle and a square inside it -/

namespace Ex

def triangle : List (Segs.Pt ℝ) := [⟨0, 0⟩, ⟨10, 10⟩, ⟨-10, 10⟩]
def square : List (Segs.Pt ℝ) := [⟨-2, 6⟩, ⟨-2, 9⟩, ⟨2, 9⟩, ⟨2, 6⟩]

/-- The edges that are not horizontal, from left to right. -/
noncomputable def edge : Fin 4 → Geom.Seg
  | 0 => .line ⟨0, 0⟩ ⟨-10, 10⟩
  | 1 => .line ⟨-2, 6⟩ ⟨-2, 9⟩
  | 2 => .line ⟨2, 6⟩ ⟨2, 9⟩
  | 3 => .line ⟨0, 0⟩ ⟨10, 10⟩

theorem edge_eq {g : Geom.Seg} (h : Edge [triangle, square] g) : ∃ i, g = edge i := by
  obtain ⟨ps, hps, e, he, hg, hlt⟩ := h
  simp only [List.mem_cons, List.not_mem_nil, or_false] at hps
  rcases hps with rfl | rfl
  · simp only [Segs.closedEdges, triangle, List.length_cons, List.length_nil, List.tail_cons, List.take, List.cons_append, List.nil_append, List.zip_cons_cons,
      List.zip_nil_right, Nat.reduceAdd, Nat.reduceLeDiff, if_false, List.mem_cons, List.not_mem_nil, or_false] at he
    rcases he with rfl | rfl | rfl <;> rcases hg with rfl | rfl <;> simp only [pt, Geom.Seg.start, Geom.Seg.stop] at hlt ⊢
    · exact ⟨3, rfl⟩
    · norm_num at hlt
    · norm_num at hlt
    · norm_num at hlt
    · norm_num at hlt
    · exact ⟨0, rfl⟩
  · simp only [Segs.closedEdges, square, List.length_cons, List.length_nil, List.tail_cons, List.take, List.cons_append, List.nil_append, List.zip_cons_cons,
      List.zip_nil_right, Nat.reduceAdd, Nat.reduceLeDiff, if_false, List.mem_cons, List.not_mem_nil, or_false] at he
    rcases he with rfl | rfl | rfl | rfl <;> rcases hg with rfl | rfl <;> simp only [pt, Geom.Seg.start, Geom.Seg.stop] at hlt ⊢
    · exact ⟨1, rfl⟩
    · norm_num at hlt
    · norm_num at hlt
    · norm_num at hlt
    · norm_num at hlt
    · exact ⟨2, rfl⟩
    · norm_num at hlt
    · norm_num at hlt

theorem at0 (t : ℝ) : (edge 0).atY t = -t := by simp [edge, Geom.Seg.atY, Geom.Seg.Horizontal]
theorem at1 (t : ℝ) : (edge 1).atY t = -2 := by simp [edge, Geom.Seg.atY, Geom.Seg.Horizontal]
theorem at2 (t : ℝ) : (edge 2).atY t = 2 := by simp [edge, Geom.Seg.atY, Geom.Seg.Horizontal]
theorem at3 (t : ℝ) : (edge 3).atY t = t := by simp [edge, Geom.Seg.atY, Geom.Seg.Horizontal]

theorem range (i : Fin 4) : (edge i).start.y ≤ 6 ∧ 9 ≤ (edge i).stop.y := by
  fin_cases i <;> norm_num [edge, Geom.Seg.start, Geom.Seg.stop]

theorem low (i : Fin 4) : 0 ≤ (edge i).start.y := by fin_cases i <;> norm_num [edge, Geom.Seg.start]
theorem low1 : (edge 1).start.y = 6 := rfl
theorem low2 : (edge 2).start.y = 6 := rfl

theorem left_lt {i j : Fin 4} (h : LeftOf (edge i) (edge j)) : i < j := by
  obtain ⟨t, ⟨h1, _⟩, ⟨h2, _⟩, h3⟩ := h
  have k1 := low i
  by_contra hge
  fin_cases i <;> fin_cases j <;> simp only [Fin.zero_eta, Fin.mk_one, Fin.reduceFinMk, at0, at1, at2, at3, low1, low2] at h1 h2 h3 k1 <;>
    first
    | (exfalso; linarith)
    | exact hge (by decide)

/-- Around the height 7.5 the edges are in order and far apart. -/
theorem far {i j : Fin 4} (h : i < j) : Far (1 / 10) (edge i) (edge j) (15 / 2) := by
  intro y0 y1 _ _ _ _ h0 h1
  rw [abs_le] at h0 h1
  fin_cases i <;> fin_cases j <;> simp only [Fin.zero_eta, Fin.mk_one, Fin.reduceFinMk, at0, at1, at2, at3] at h ⊢ <;>
    first
    | linarith
    | exact absurd h (by decide)

theorem polygons : Polygons (1 / 10) [triangle, square] := by
  refine ⟨?_, ?_, ?_, ?_⟩
  · intro g h hg hh l1 l2
    obtain ⟨i, rfl⟩ := edge_eq hg
    obtain ⟨j, rfl⟩ := edge_eq hh
    exact absurd (left_lt l1) (not_lt.2 (left_lt l2).le)
  · intro g hg
    obtain ⟨i, rfl⟩ := edge_eq hg
    fin_cases i <;> norm_num [edge, Moderate, slope, Geom.Seg.start, Geom.Seg.stop]
  · intro g h hg hh
    obtain ⟨i, rfl⟩ := edge_eq hg
    left
    fin_cases i <;> norm_num [edge, slope, Geom.Seg.start, Geom.Seg.stop]
  · intro g h hg hh l
    obtain ⟨i, rfl⟩ := edge_eq hg
    obtain ⟨j, rfl⟩ := edge_eq hh
    refine Or.inl ⟨15 / 2, max_lt ?_ ?_, le_min ?_ ?_, far (left_lt l)⟩ <;> linarith [(range i).1, (range i).2, (range j).1, (range j).2]

end Ex

end Verif.Full
