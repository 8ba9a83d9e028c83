import Verif.Full.Outline
import Verif.Full.LooseExample

/-!
# Boolean operations on polygons that are drawn as paths
-/

namespace Verif.Full
open Verif.Curve Verif.BinOp
set_option linter.unusedSectionVars false

section
variable {cfg : Cfg} {as bs : List (List (Segs.Pt ℝ))}

/-- C80 for polygons that are drawn as paths. -/
theorem C80_outlines (he : 0 < cfg.eps) (hpp : Searches cfg.pp) (hsolve : Geom.FindsRoots cfg.solve) (ha : Proper as) (hb : Proper bs)
    (hP : Polygons cfg.eps (as ++ bs)) (rule : FillRule) (op : Op) :
    ∃ N t' cs, (∀ fuel, N ≤ fuel → binaryOp cfg (outlines as) (outlines bs) rule op fuel = .ok (buildPolylines as bs).1 t' cs) ∧
      ∀ x z, Away cfg (buildPolylines as bs).1 x z →
        (Combine op (InShape rule (windPath (outlines as) x z)) (InShape rule (windPath (outlines bs) x z)) → windContours (buildPolylines as bs).1 t' cs x z = 1) ∧
        (¬ Combine op (InShape rule (windPath (outlines as) x z)) (InShape rule (windPath (outlines bs) x z)) → windContours (buildPolylines as bs).1 t' cs x z = 0) := by
  obtain ⟨N, t', cs, h1, h2⟩ := C80_polygons he hpp hsolve hP rule op
  refine ⟨N, t', cs, fun fuel hf => by rw [C83_outlines cfg ha hb]; exact h1 fuel hf, fun x z hx => ?_⟩
  rw [wind_outlines ha, wind_outlines hb]
  exact h2 x z hx

/-- C81 for polygons that are drawn as paths. -/
theorem C81_outlines (he : 0 < cfg.eps) (hpp : Searches cfg.pp) (hsolve : Geom.FindsRoots cfg.solve) (hf : OneFirst cfg.first) (ha : Proper as) (hb : Proper bs)
    (hP : LoosePolygons cfg.eps (as ++ bs)) (rule : FillRule) (op : Op) :
    ∃ N t' cs, (∀ fuel, N ≤ fuel → binaryOp cfg (outlines as) (outlines bs) rule op fuel = .ok (buildPolylines as bs).1 t' cs) ∧
      ∀ x z, OffEdges cfg.eps (as ++ bs) x z →
        (Combine op (InShape rule (windPath (outlines as) x z)) (InShape rule (windPath (outlines bs) x z)) → windContours (buildPolylines as bs).1 t' cs x z = 1) ∧
        (¬ Combine op (InShape rule (windPath (outlines as) x z)) (InShape rule (windPath (outlines bs) x z)) → windContours (buildPolylines as bs).1 t' cs x z = 0) := by
  obtain ⟨N, t', cs, h1, h2⟩ := C81_polygons he hpp hsolve hf hP rule op
  refine ⟨N, t', cs, fun fuel hfu => by rw [C83_outlines cfg ha hb]; exact h1 fuel hfu, fun x z hx => ?_⟩
  rw [wind_outlines ha, wind_outlines hb]
  exact h2 x z hx

end

/-! ## Non-vacuity -/

namespace Cross

theorem proper_up : Proper [up] := by
  intro ps hps e he
  rw [List.mem_singleton] at hps
  subst hps
  simp [Segs.closedEdges, up] at he
  rcases he with rfl | rfl | rfl <;> simp <;> norm_num

theorem proper_down : Proper [upsideDown] := by
  intro ps hps e he
  rw [List.mem_singleton] at hps
  subst hps
  simp [Segs.closedEdges, upsideDown] at he
  rcases he with rfl | rfl | rfl <;> simp <;> norm_num

/-- The two triangles, drawn as paths. -/
theorem outlines_up : outlines [up] = [.moveTo ⟨0, 0⟩, .lineTo ⟨10, 10⟩, .lineTo ⟨-10, 10⟩, .closePath] := rfl

/-- The exclusive or of two triangles that cross, drawn as paths. -/
theorem xor_of_outlines : ∃ N s t' cs, (∀ fuel, N ≤ fuel → binaryOp cfg (outlines [up]) (outlines [upsideDown]) .nonZero .xor fuel = .ok s t' cs) ∧
    windContours s t' cs (-7) 5 = 1 ∧ windContours s t' cs (-7) 9 = 1 ∧ windContours s t' cs 0 7 = 0 ∧ windContours s t' cs (-8) 7 = 0 := by
  obtain ⟨N, t', cs, h1, h2⟩ := xor_of_triangles
  exact ⟨N, _, t', cs, fun fuel hf => by rw [C83_outlines cfg proper_up proper_down]; exact h1 fuel hf, h2⟩

/-- The hypotheses of `C81_paths` hold for them. -/
theorem general_outlines : ∃ s tags, buildPaths (tagged (outlines [up]) (outlines [upsideDown])) = .ok s tags ∧ General cfg s :=
  ⟨_, _, build_outlines proper_up proper_down, general_of_loose (buildPolylines_arena [up] [upsideDown]) (by norm_num [cfg])
    (Classical.choose_spec Geom.findsRoots_exists) oneFirst (LoosePolygons.loose (as := [up]) (bs := [upsideDown]) loose)⟩

end Cross

end Verif.Full
