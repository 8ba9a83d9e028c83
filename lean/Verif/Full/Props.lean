import Verif.Full.Final
import Verif.Full.Drawn
import Verif.Full.Adjacent
import Verif.Sweep.Main

/-!
# End-to-end properties

The specification: `windPath p x z` and `windPolyline ps x z` (Wind.lean) are winding numbers by counting crossings of the monotone pieces of the input with the
ray to the left; at regular heights this is the textbook count of crossings of the curves themselves (`C77_winding_number`, Drawn.lean). `Combine op (InShape rule n) (InShape rule m)` (BinOp)
is the definition of the boolean operations. `windContours s t cs x z` (Result.lean) is the winding number of the contours of the result.
-/

namespace Verif.Full
open Verif.Segs (Segments PathSeg PathEl)
open Verif.BinOp (FillRule Op BinaryWinding InShape Combine)
set_option linter.unusedSectionVars false

variable {T W : Type} [AddCommGroup W] [DecidableEq W]
variable {cfg : Cfg} {single : T → Bool → W} {fuel2 fuel : Nat} {t : Topo.Topo ℝ W}

/-! ## C76: the map of the input -/

/-- C76 (`LineOrder` is not proved for inputs with crossings): in the map that `Topology::from_paths` makes, every monotone piece `a` of every input curve is traced from its start to its end by
output segments at increasing heights; every half segment has an end point; the half segments around a point form one ring; and winding numbers agree around
each point. -/
theorem C76_map_partial {ps : List (List (PathEl ℝ) × T)} {s : Segments ℝ} {tags : List T} (hb : buildPaths ps = .ok s tags) (he : 0 < cfg.eps)
    (hpp : Searches cfg.pp) (hn : ∀ t b, single t (!b) = - single t b) (ho : LineOrder cfg s fuel2) (h : sweep cfg single s tags fuel2 fuel = some t) :
    (∀ a < s.len, ∃ vs : List (Sweep.Visit ℝ),
      (∃ v, vs.head? = some v ∧ v.y = (segAt s a).start.y ∧ v.x0 = (segAt s a).start.x) ∧
      (∃ v, vs.getLast? = some v ∧ v.y = (segAt s a).stop.y ∧ v.x1 = (segAt s a).stop.x) ∧
      ∀ l v w l', vs = l ++ v :: w :: l' → v.y < w.y ∧ ∃ i, Sweep.PieceOf t a i (v.x1, v.y) (w.x0, w.y)) ∧
    (∀ e : Topo.Half, e.idx < t.n → ∃ p, t.pointIdx e = some p ∧ p < t.points.length) ∧
    (∀ (e : Topo.Half) (p : Nat), t.pointIdx e = some p → t.pointIdx (t.nb e).cw = some p ∧ (t.nb (t.nb e).cw).ccw = e ∧
      (∀ e', t.pointIdx e' = some p → ∃ k, (fun a => (t.nb a).cw)^[k] e = e') ∧ t.windingCw e = t.windingCcw (t.nb e).cw) := by
  have ha := buildPaths_arena hb
  have hV := env_valid ha he hpp single hn ho
  obtain ⟨r1, r2, r3, r4⟩ := Sweep.C61_rings hV h
  obtain ⟨w1, -, -⟩ := Sweep.C61_winding hV h
  refine ⟨?_, r2, ?_⟩
  · intro a hal
    obtain ⟨vs, v1, v2, v3, -⟩ := Sweep.C61_traced hV h a ((mem_segs (cfg := cfg) ha a).2 hal)
    exact ⟨vs, v1, v2, fun l v w l' e => ⟨(v3 l v w l' e).1, (v3 l v w l' e).2.1.imp fun i hi => hi.1⟩⟩
  · intro e p hp
    obtain ⟨k1, -, k3, -, k5⟩ := r4 e p hp
    exact ⟨k1, k3, k5, w1 e p hp⟩

/-! ## C77: winding numbers -/

/-- C77 (`LineOrder` and `BetweenOrder` are not proved for inputs with crossings): the winding number recorded between the output segments to the left of a point and those to its right is the sum
of the winding numbers of the input paths around the point. -/
theorem C77_winding_partial {ps : List (List (PathEl ℝ) × T)} {s : Segments ℝ} {tags : List T} (hb : buildPaths ps = .ok s tags) (he : 0 < cfg.eps)
    (hpp : Searches cfg.pp) (hn : ∀ t b, single t (!b) = - single t b) (ho : LineOrder cfg s fuel2) (h : sweep cfg single s tags fuel2 fuel = some t) :
    ∃ m, Scan.buildScanLineOrders t = some m ∧ ∀ x z, BetweenOrder cfg s fuel2 z → Away cfg s x z →
      ∃ l1 l2, GapAt s t m x z ((ps.map fun p => windPath p.1 x z • single p.2 true).sum) l1 l2 := by
  obtain ⟨m, hm, H⟩ := gap_at (buildPaths_arena hb) he hpp hn ho h
  refine ⟨m, hm, fun x z h1 h2 => ?_⟩
  rw [← windArena_paths (cfg := cfg) hb single hn x z]
  exact H x z h1 h2

/-- C77 for inputs that do not cross themselves or each other: no further conditions, and every point. -/
theorem C77_winding_planar {ps : List (List (PathEl ℝ) × T)} {s : Segments ℝ} {tags : List T} (hb : buildPaths ps = .ok s tags) (he : 0 < cfg.eps)
    (hpp : Searches cfg.pp) (hsolve : Geom.FindsRoots cfg.solve) (hn : ∀ t b, single t (!b) = - single t b) (hN : NoCross s) (hR : Resolved cfg s)
    (h : sweep cfg single s tags fuel2 fuel = some t) :
    ∃ m, Scan.buildScanLineOrders t = some m ∧ ∀ x z, ∃ l1 l2, GapAt s t m x z ((ps.map fun p => windPath p.1 x z • single p.2 true).sum) l1 l2 := by
  obtain ⟨m, hm, H⟩ := gap_planar (buildPaths_arena hb) he hpp hsolve hn hN hR h
  refine ⟨m, hm, fun x z => ?_⟩
  rw [← windArena_paths (cfg := cfg) hb single hn x z]
  exact H x z

/-! ## C78: boolean operations -/

variable {s' : Segments ℝ} {t' : Topo.Topo ℝ BinaryWinding} {cs : List Contours.Contour} {rule : FillRule} {op : Op}

/-- C78 (`LineOrder` and `BetweenOrder` are not proved for inputs with crossings): around every point that keeps the distance `eps` from the input, the contours that `binary_op` returns have winding number one if the
point is in the boolean combination of the two input shapes, and zero otherwise. -/
theorem C78_binary_op_partial {a b : List (PathEl ℝ)} (he : 0 < cfg.eps) (hpp : Searches cfg.pp) (h : binaryOp cfg a b rule op fuel = .ok s' t' cs)
    (ho : LineOrder cfg s' fuel) {x z : ℝ} (hbo : BetweenOrder cfg s' fuel z) (hx : Away cfg s' x z) :
    (Combine op (InShape rule (windPath a x z)) (InShape rule (windPath b x z)) → windContours s' t' cs x z = 1) ∧
    (¬ Combine op (InShape rule (windPath a x z)) (InShape rule (windPath b x z)) → windContours s' t' cs x z = 0) := by
  obtain ⟨s, tags, hb, hf⟩ := binaryOp_ok h
  obtain ⟨rfl, -⟩ := finish_ok hf
  have hn := BinaryWinding.single_neg
  have ha := buildPaths_arena hb
  refine finish_winding ha he (env_valid ha he hpp _ hn ho) hf hx ?_
  intro t ht
  obtain ⟨m, -, H⟩ := gap_at ha he hpp hn ho ht
  obtain ⟨l1, l2, hg⟩ := H x z hbo hx
  rw [windArena_paths (cfg := cfg) hb _ hn x z, tagged_wind] at hg
  exact ⟨m, l1, l2, hg⟩

/-- C78 for inputs that do not cross themselves or each other. -/
theorem C78_binary_op_planar {a b : List (PathEl ℝ)} (he : 0 < cfg.eps) (hpp : Searches cfg.pp) (hsolve : Geom.FindsRoots cfg.solve)
    (h : binaryOp cfg a b rule op fuel = .ok s' t' cs) (hN : NoCross s') (hR : Resolved cfg s') {x z : ℝ} (hx : Away cfg s' x z) :
    (Combine op (InShape rule (windPath a x z)) (InShape rule (windPath b x z)) → windContours s' t' cs x z = 1) ∧
    (¬ Combine op (InShape rule (windPath a x z)) (InShape rule (windPath b x z)) → windContours s' t' cs x z = 0) := by
  obtain ⟨s, tags, hb, hf⟩ := binaryOp_ok h
  obtain ⟨rfl, -⟩ := finish_ok hf
  have hn := BinaryWinding.single_neg
  have ha := buildPaths_arena hb
  refine finish_winding ha he (env_valid ha he hpp _ hn (planar_order ha he hpp hsolve hN hR fuel)) hf hx ?_
  intro t ht
  obtain ⟨m, -, H⟩ := gap_planar ha he hpp hsolve hn hN hR ht
  obtain ⟨l1, l2, hg⟩ := H x z
  rw [windArena_paths (cfg := cfg) hb _ hn x z, tagged_wind] at hg
  exact ⟨m, l1, l2, hg⟩

theorem polylines_wind (as bs : List (List (Segs.Pt ℝ))) (x z : ℝ) :
    windArena cfg (buildPolylines as bs).1 (buildPolylines as bs).2 BinaryWinding.single x z =
      ⟨(as.map fun ps => windPolyline ps x z).sum, (bs.map fun ps => windPolyline ps x z).sum⟩ := by
  rw [windArena_polylines as bs _ BinaryWinding.single_neg x z, ← BinaryWinding.turns]

/-- C78 for polylines that do not cross themselves or each other. -/
theorem C78_polylines_planar {as bs : List (List (Segs.Pt ℝ))} (he : 0 < cfg.eps) (hpp : Searches cfg.pp) (hsolve : Geom.FindsRoots cfg.solve)
    (h : polylineOp cfg as bs rule op fuel = .ok s' t' cs) (hN : NoCross (buildPolylines as bs).1) (hR : Resolved cfg (buildPolylines as bs).1) {x z : ℝ}
    (hx : Away cfg (buildPolylines as bs).1 x z) :
    (Combine op (InShape rule (as.map fun ps => windPolyline ps x z).sum) (InShape rule (bs.map fun ps => windPolyline ps x z).sum) → windContours s' t' cs x z = 1) ∧
    (¬ Combine op (InShape rule (as.map fun ps => windPolyline ps x z).sum) (InShape rule (bs.map fun ps => windPolyline ps x z).sum) →
      windContours s' t' cs x z = 0) := by
  obtain ⟨rfl, -⟩ := finish_ok h
  have hn := BinaryWinding.single_neg
  have ha := buildPolylines_arena as bs
  refine finish_winding ha he (env_valid ha he hpp _ hn (planar_order ha he hpp hsolve hN hR fuel)) h hx ?_
  intro t ht
  obtain ⟨m, -, H⟩ := gap_planar ha he hpp hsolve hn hN hR ht
  obtain ⟨l1, l2, hg⟩ := H x z
  rw [polylines_wind] at hg
  exact ⟨m, l1, l2, hg⟩

end Verif.Full
