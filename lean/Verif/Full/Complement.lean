import Verif.Full.ManyCurves

/-!
# C100: the returned paths if the outside is selected

A predicate may select the winding number of the unbounded region, as in "everything but the shape". The region cannot then be drawn by paths that wind once around it; the returned
paths wind once in the negative direction around what is not selected.
-/

namespace Verif.Full
open Verif.Segs (Segments PathEl)
open Verif.Curve Verif.BinOp

/-- What should be returned for a region that contains the outside: closed polygons near the edges of the input, nested as a forest, that wind once in the
negative direction around the points that are not in the region, and not around the points of the region. -/
structure RightHoles (eps : ℝ) (pss : List (List (Segs.Pt ℝ))) (region : ℝ → ℝ → Prop) (out : List OutContour) : Prop where
  polygon : ∀ c ∈ out, ∃ es, Drawn c.path es ∧ ∀ e ∈ es, NearOne eps pss e
  top : ∀ (i : Nat) (c : OutContour), out[i]? = some c → c.parent = none → c.outer = true
  tree : ∀ (i : Nat) (c : OutContour) (p : Nat), out[i]? = some c → c.parent = some p → p < i ∧ ∃ d : OutContour, out[p]? = some d ∧ c.outer = !d.outer
  winding : ∀ x z, Distant eps pss x z → (region x z → windOut out x z = 0) ∧ (¬ region x z → windOut out x z = -1)

/-- The same for paths with curves. -/
structure RightCurvedHoles (eps κ : ℝ) (s : Segments ℝ) (region : ℝ → ℝ → Prop) (out : List OutContour) : Prop where
  form : ∀ c ∈ out, ∃ p els, c.path = .moveTo p :: (els ++ [.closePath]) ∧ ∀ e ∈ els, Stroke e
  drawn : ∀ c ∈ out, ∃ gs, pathSegs c.path = some gs ∧ gs ≠ [] ∧ Loop gs ∧ ∀ g ∈ gs, Level eps s g ∨ ∀ u, 0 ≤ u → u ≤ 1 → Close κ s (drawnX g u) (drawnY g u)
  top : ∀ (i : Nat) (c : OutContour), out[i]? = some c → c.parent = none → c.outer = true
  tree : ∀ (i : Nat) (c : OutContour) (p : Nat), out[i]? = some c → c.parent = some p → p < i ∧ ∃ d : OutContour, out[p]? = some d ∧ c.outer = !d.outer
  winding : ∀ x z, Outside κ s x z → (region x z → windOut out x z = 0) ∧ (¬ region x z → windOut out x z = -1)

variable {cfg : Cfg}

/-- **C100.** For any number of tagged shapes made of polygons in general position, any winding number and any predicate that selects the outside. -/
theorem C100_polygons {T W : Type} [AddCommGroup W] [DecidableEq W] {shapes : List (List (List (Segs.Pt ℝ)) × T)} (again : Nat → Nat → Bool) (single : T → Bool → W)
    (hn : ∀ t b, single t (!b) = - single t b) (inside : W → Bool) (h0 : inside 0 = true)
    (he : 0 < cfg.eps) (hpp : Searches cfg.pp) (hf : OneFirst cfg.first) (hp : Proper (polygons shapes))
    (hP : LoosePolygons cfg.eps (polygons shapes)) (hB : BeyondCorners cfg (polygons shapes)) :
    ∃ N out, (∀ fuel, N ≤ fuel → (fromPaths cfg single inside (drawn shapes) fuel).draw cfg again fuel = .ok out) ∧
      RightHoles cfg.eps (polygons shapes) (fun x z => inside (number single shapes x z) = true) out := by
  obtain ⟨tags, hb⟩ := build_drawn hp
  obtain ⟨ideal, hid⟩ := Geom.findsRoots_exists
  obtain ⟨c, hc⟩ : ∃ c, c = cfg.using ideal := ⟨_, rfl⟩
  have hce : c.eps = cfg.eps := by rw [hc]; rfl
  have hcs : Geom.FindsRoots c.solve := by rw [hc]; exact hid
  have hcp : Searches c.pp := by rw [hc]; exact hpp
  have hcf : OneFirst c.first := by rw [hc]; exact hf
  have hce0 : 0 < c.eps := by rw [hce]; exact he
  have hP' : LoosePolygons c.eps (polygons shapes ++ []) := by rw [List.append_nil, hce]; exact hP
  have hB' : BeyondCorners c (polygons shapes ++ []) := by rw [List.append_nil, hc]; exact hB
  have ha := buildPaths_arena hb
  have hL := hP'.loose
  have hG := general_of_loose ha hce0 hcs hcf hL
  obtain ⟨N, t, t', cs, h1, hV, h2, h3, h4, h5⟩ := general_contours (cfg := c) single hn inside hce0 hcp hcs hcf hb hG
  have hacc := sweep_accurate ha hce0 hV (env_tidy_general ha hce0 hcp hcs hcf hG
    (fun i j t hne _ hb => (blurred_meet ha hce0 hcs hcf hL.line hL.moderate hL.upright hne hb).touching hce0) (beyond_corners hB') N) h2 h3
  obtain ⟨M, out, d1, d2, d3, d4, d5⟩ := draw_any again hce0 hcs ha hV h2 h3 h4 hacc
  rw [List.append_nil, hce] at d2 d5
  refine ⟨max N M, out, fun fuel hfu => ?_, d2, d3, d4, fun x z hx => ?_⟩
  · obtain ⟨pos, p1, p2⟩ := d1 fuel (by omega)
    rw [hc, layout_free (lines_polylines _ _)] at p1
    rw [← fromPaths_free hb (lines_polylines _ _) ideal, ← hc, h1 fuel (by omega)]
    simp only [Mapped.draw, p1, p2]
  · have ho : Off c.eps (buildPolylines (polygons shapes) []).1 x z := Distant.off hce0 (by rw [List.append_nil, hce]; exact hx)
    rw [d5 x z hx, h5 x z (ho.away hce0) (ho.beside ha hce0 hcs hcf hL), drawn_number hp, h0]
    constructor <;> intro h <;> simp [h]

/-- **C100.** Every boolean combination `f` of any number of shapes made of polygons that contains the points that are in none of them. -/
theorem C100_shapes {n : Nat} (shapes : Fin n → List (List (Segs.Pt ℝ))) (again : Nat → Nat → Bool) (rule : FillRule) (f : (Fin n → Prop) → Prop)
    (h0 : f fun _ => False) (he : 0 < cfg.eps) (hpp : Searches cfg.pp) (hf : OneFirst cfg.first) (hp : Proper (polygons (numbered shapes)))
    (hP : LoosePolygons cfg.eps (polygons (numbered shapes))) (hB : BeyondCorners cfg (polygons (numbered shapes))) :
    ∃ N out, (∀ fuel, N ≤ fuel → (fromPaths cfg counter (wanted rule f) (drawn (numbered shapes)) fuel).draw cfg again fuel = .ok out) ∧
      RightHoles cfg.eps (polygons (numbered shapes)) (fun x z => f fun i => InPolygons rule (shapes i) x z) out := by
  have hw : wanted rule f 0 = true := by
    have e : (fun i : Fin n => InShape rule ((0 : Fin n → ℤ) i)) = fun _ => False := by
      funext i
      cases rule <;> simp [InShape]
    unfold wanted
    rw [e]
    simpa using h0
  obtain ⟨N, out, h1, h2⟩ := C100_polygons again counter counter_neg (wanted rule f) hw he hpp hf hp hP hB
  refine ⟨N, out, h1, h2.polygon, h2.top, h2.tree, fun x z hx => ?_⟩
  have := h2.winding x z hx
  simp only [number_counter, wanted, decide_eq_true_eq] at this
  exact this

variable {s : Segments ℝ} {ρ : Nat → ℝ} {μ σ Wd H : ℝ}

/-- **C100.** For any number of tagged paths with curves as in C98. -/
theorem C100_paths {T W : Type} [AddCommGroup W] [DecidableEq W] {tags : List T} {ps : List (List (PathEl ℝ) × T)} (again : Nat → Nat → Bool) (single : T → Bool → W)
    (hn : ∀ t b, single t (!b) = - single t b) (inside : W → Bool) (h0 : inside 0 = true) (he : 0 < cfg.eps) (hpp : Searches cfg.pp)
    (hsolve : Geom.FindsRoots cfg.solve) (hf : OneFirst cfg.first) (hb : buildPaths ps = .ok s tags) (hU : Unsplit s) (hL : LooseCurves cfg.eps ρ s)
    (hT : Tight cfg.eps ρ s) (hB : Beyond cfg s) (hM : Mild cfg.eps ρ s μ σ Wd H) (hρ : ∀ i, Slanted s i → ρ i ≤ 2 * cfg.eps) :
    ∃ N out, (∀ fuel, N ≤ fuel → (fromPaths cfg single inside ps fuel).draw cfg again fuel = .ok out) ∧
      RightCurvedHoles cfg.eps (driftOf cfg.eps μ σ Wd H) s (fun x z => inside (ps.map fun p => windPath p.1 x z • single p.2 true).sum = true) out := by
  have ha := buildPaths_arena hb
  have hG := general_of_curves ha he hsolve hf hL
  obtain ⟨N, t, t', cs, h1, hV, h2, h3, h4, h5⟩ := general_contours single hn inside he hpp hsolve hf hb hG
  have hacc := sweep_accurate ha he hV (env_tidy_general ha he hpp hsolve hf hG (meets_curves ha he hsolve hf hL hT) hB N) h2 h3
  obtain ⟨M, out, d1, d2, d3, d4, d5, d6⟩ := draw_curves again ha he hpp hsolve hf hn hV h2 h3 h4 hacc hU hL hM
  refine ⟨max N M, out, fun fuel hfu => ?_, d2, d3, d4, d5, fun x z hx => ?_⟩
  · obtain ⟨pos, p1, p2⟩ := d1 fuel (by omega)
    rw [h1 fuel (by omega)]
    simp only [Mapped.draw, p1, p2]
  · have ho := hx.off ha he hM hρ
    rw [d6 x z hx, h5 x z (ho.away he fun i hi => (hL.gentle i hi).1) (ho.beside ha he hsolve hf hL), h0]
    constructor <;> intro h <;> simp [h]

/-! ## Example -/

/-- Everything but the triangles that cross, with the even-odd rule on one path: the point `(0, 2)` in the lower triangle alone is not selected and has winding number `-1`; the
point `(0, 7)` in both is selected. -/
theorem Cross.all_but : ∃ N out,
    (∀ fuel, N ≤ fuel → (fromPaths Cross.cfg' single1 (fun w => decide (w % 2 = 0)) (drawn [([Cross.up, Cross.upsideDown], ())]) fuel).draw Cross.cfg' (fun _ _ => true) fuel = .ok out) ∧
    windOut out 0 7 = 0 ∧ windOut out 0 2 = -1 := by
  have hs : ∀ (t : Unit) (b : Bool), single1 t (!b) = - single1 t b := by intro t b; cases b <;> simp [single1]
  obtain ⟨N, out, h1, h2⟩ := C100_polygons (cfg := Cross.cfg') (shapes := [([Cross.up, Cross.upsideDown], ())]) (fun _ _ => true) single1 hs
    (fun w => decide (w % 2 = 0)) (by decide) (by norm_num [Cross.cfg', Cross.cfg]) Ex.searches Cross.oneFirst Cross.proper_both Cross.loose Cross.beyond
  refine ⟨N, out, h1, (h2.winding 0 7 (Cross.distant_middle (by simp))).1 ?_, (h2.winding 0 2 (Cross.distant_middle (by simp))).2 ?_⟩
  · simp only [number, List.map_cons, List.map_nil, List.sum_cons, List.sum_nil, Cross.up_wind, Cross.down_wind]
    norm_num [single1]
  · simp only [number, List.map_cons, List.map_nil, List.sum_cons, List.sum_nil, Cross.up_wind, Cross.down_wind]
    norm_num [single1]

end Verif.Full
