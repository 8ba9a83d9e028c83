import Verif.Geom.LineFree
import Verif.Geom.SolverBounds
import Verif.Full.Laws

/-!
# C94: for polygons the root finder does not matter

The theorems about polygons assume that the root finder finds all roots, which the one in the code does not (C92). Here the assumption is removed.
-/

namespace Verif.Full
open Verif.Curve Verif.BinOp Verif.Segs

/-- The same run with another root finder. -/
def Cfg.using (cfg : Cfg) (solve : ℝ → ℝ → ℝ → ℝ → List ℝ) : Cfg := { cfg with solve := solve }

/-- All segments are lines. -/
def AllLines (s : Segments ℝ) : Prop := ∀ i, ∃ p q, segAt s i = .line p q

variable {cfg : Cfg} {s : Segments ℝ} {solve : ℝ → ℝ → ℝ → ℝ → List ℝ}

/-! ## Lemmas -/

theorem compareNew_free (s1 s2 : ℝ → ℝ → ℝ → ℝ → List ℝ) (tol acc slop : ℝ) {a b : Geom.Seg} (ha : ∃ p q, a = .line p q) (hb : ∃ p q, b = .line p q) :
    compareNew s1 tol acc slop a b = compareNew s2 tol acc slop a b := by
  obtain ⟨p, q, rfl⟩ := ha
  obtain ⟨p', q', rfl⟩ := hb
  have : Ends s1 tol acc (Geom.Seg.line p q).toCubic (Geom.Seg.line p' q').toCubic = Ends s2 tol acc (Geom.Seg.line p q).toCubic (Geom.Seg.line p' q').toCubic := by
    funext out
    unfold Ends
    simp only [Geom.intersectCubics_free s1 s2 tol acc _ (Geom.lined_line p q) (Geom.lined_line p' q')]
  unfold compareNew
  rw [this]

theorem compare_free (h : AllLines s) (s1 s2 : ℝ → ℝ → ℝ → ℝ → List ℝ) (tol acc slop : ℝ) (first : Nat → Nat → Bool) :
    compare s1 tol acc slop first (segAt s) = compare s2 tol acc slop first (segAt s) := by
  funext i j
  unfold compare
  rw [compareNew_free s1 s2 tol acc slop (h i) (h j), compareNew_free s1 s2 tol acc slop (h j) (h i)]

theorem env_free (h : AllLines s) (solve : ℝ → ℝ → ℝ → ℝ → List ℝ) : env (cfg.using solve) s = env cfg s := by
  unfold env Cfg.using
  simp only
  rw [compare_free h solve cfg.solve, compare_free h solve cfg.solve]

theorem finish_free (h : AllLines s) (solve : ℝ → ℝ → ℝ → ℝ → List ℝ) (rule : FillRule) (op : Op) (tags : List Bool) (fuel : Nat) :
    finish (cfg.using solve) rule op s tags fuel = finish cfg rule op s tags fuel := by
  unfold finish fromSegments sweep
  rw [env_free h solve]
  rfl

/-- The layout of lines does not use the root finder. -/
theorem positions_free (I : Pos.Input) (h : ∀ o, Pos.isLine (I.seg o) = true) (solve : ℝ → ℝ → ℝ → ℝ → List ℝ) (fuel : Nat) :
    Pos.computePositions { I with solve := solve } fuel = Pos.computePositions I fuel := by
  have hwest : ∀ y0 k cur y1 scan, Pos.westScan { I with solve := solve } y0 k cur y1 scan = Pos.westScan I y0 k cur y1 scan := by
    intro y0 k
    induction k with
    | zero => intros; rfl
    | succ k ih => intro cur y1 scan; simp only [Pos.westScan, ih]
  have heast : ∀ y0 k cur y1 scan, Pos.eastScan { I with solve := solve } y0 k cur y1 scan = Pos.eastScan I y0 k cur y1 scan := by
    intro y0 k
    induction k with
    | zero => intros; rfl
    | succ k ih => intro cur y1 scan; simp only [Pos.eastScan, ih]
  have hclose : ∀ n os y0 y1 out, Pos.allClose { I with solve := solve } n os y0 y1 out = Pos.allClose I n os y0 y1 out := by
    intro n os y0 y1 out
    have e : (os.all fun o => Pos.isLine (I.seg o)) = true := List.all_eq_true.2 fun o _ => h o
    simp only [Pos.allClose]
    rw [if_pos e, if_pos e]
  have hhandle : ∀ n e st, Pos.handle { I with solve := solve } n e st = Pos.handle I n e st := by
    intro n e st
    simp only [Pos.handle, hwest, heast, Pos.place, hclose]
  have hmain : ∀ n st, Pos.mainLoop { I with solve := solve } n st = Pos.mainLoop I n st := by
    intro n
    induction n with
    | zero => intros; rfl
    | succ n ih => intro st; simp only [Pos.mainLoop, hhandle, ih]
  simp only [Pos.computePositions, hmain]
  rfl

theorem layout_free (h : AllLines s) (solve : ℝ → ℝ → ℝ → ℝ → List ℝ) (again : Nat → Nat → Bool) {W : Type} [AddCommGroup W] [DecidableEq W] (t : Topo.Topo ℝ W) (fuel : Nat) :
    layout (cfg.using solve) again s t fuel = layout cfg again s t fuel := by
  unfold layout
  cases Scan.buildScanLineOrders t with
  | none => rfl
  | some m =>
    simp only
    have e : layoutInput (cfg.using solve) again s t m = { layoutInput cfg again s t m with solve := solve } := by
      unfold layoutInput Cfg.using
      simp only
      rw [compare_free h solve cfg.solve]
    rw [e]
    refine positions_free _ (fun o => ?_) solve fuel
    obtain ⟨p, q, e⟩ := h (t.origSeg o)
    change Pos.isLine (segAt s (t.origSeg o)) = true
    rw [e]; rfl

theorem lines_polylines (as bs : List (List (Segs.Pt ℝ))) : AllLines (buildPolylines as bs).1 := by
  intro i
  by_cases hi : i < (buildPolylines as bs).1.len
  · obtain ⟨ps, -, e, -, h | h⟩ := segment_edge hi
    · exact ⟨_, _, h⟩
    · exact ⟨_, _, h⟩
  · unfold segAt
    rw [List.getElem?_eq_none (by simpa [Segments.len] using not_lt.1 hi)]
    exact ⟨_, _, rfl⟩

/-! ## Theorems -/

variable {as bs : List (List (Segs.Pt ℝ))}

/-- **C94.** The result of a boolean operation on polygons does not depend on the root finder: neither the topology and the contours, ... -/
theorem C94_contours (cfg : Cfg) (solve : ℝ → ℝ → ℝ → ℝ → List ℝ) (rule : FillRule) (op : Op) (fuel : Nat) :
    polylineOp { cfg with solve := solve } as bs rule op fuel = polylineOp cfg as bs rule op fuel :=
  finish_free (lines_polylines as bs) solve rule op _ fuel

/-- **C94.** ... nor the returned paths. -/
theorem C94_paths (cfg : Cfg) (solve : ℝ → ℝ → ℝ → ℝ → List ℝ) (again : Nat → Nat → Bool) (rule : FillRule) (op : Op) (fuel : Nat) :
    polylineOpPaths { cfg with solve := solve } again as bs rule op fuel = polylineOpPaths cfg again as bs rule op fuel := by
  unfold polylineOpPaths
  rw [C94_contours cfg solve]
  cases h : polylineOp cfg as bs rule op fuel with
  | err a b => rfl
  | panic => rfl
  | ok s t cs =>
    have hs : s = (buildPolylines as bs).1 := by
      unfold polylineOp finish at h
      split at h
      · exact absurd h (by simp)
      · split at h
        · exact absurd h (by simp)
        · injection h with h1 _ _; exact h1.symm
    subst hs
    simp only [Outcome.draw]
    rw [show layout { cfg with solve := solve } again (buildPolylines as bs).1 t fuel = layout cfg again (buildPolylines as bs).1 t fuel from
      layout_free (lines_polylines as bs) solve again t fuel]

/-- **C94.** C85 for polygons that do not cross, with any root finder. -/
theorem C94_polygons (again : Nat → Nat → Bool) (he : 0 < cfg.eps) (hpp : Searches cfg.pp) (hP : Polygons cfg.eps (as ++ bs)) (hB : BeyondCorners cfg (as ++ bs))
    (rule : FillRule) (op : Op) :
    ∃ N out, (∀ fuel, N ≤ fuel → polylineOpPaths cfg again as bs rule op fuel = .ok out) ∧ RightPaths cfg.eps as bs rule op out := by
  obtain ⟨ideal, hid⟩ := Geom.findsRoots_exists
  obtain ⟨N, out, h1, h2⟩ := C85_polygons (cfg := { cfg with solve := ideal }) again he hpp hid hP hB rule op
  exact ⟨N, out, fun fuel hf => by rw [← C94_paths cfg ideal]; exact h1 fuel hf, h2⟩

/-- **C94.** C85 for polygons in general position, with any root finder. -/
theorem C94_crossing (again : Nat → Nat → Bool) (he : 0 < cfg.eps) (hpp : Searches cfg.pp) (hf : OneFirst cfg.first) (hP : LoosePolygons cfg.eps (as ++ bs))
    (hB : BeyondCorners cfg (as ++ bs)) (rule : FillRule) (op : Op) :
    ∃ N out, (∀ fuel, N ≤ fuel → polylineOpPaths cfg again as bs rule op fuel = .ok out) ∧ RightPaths cfg.eps as bs rule op out := by
  obtain ⟨ideal, hid⟩ := Geom.findsRoots_exists
  obtain ⟨N, out, h1, h2⟩ := C85_crossing (cfg := { cfg with solve := ideal }) again he hpp hid hf hP hB rule op
  exact ⟨N, out, fun fuel hf => by rw [← C94_paths cfg ideal]; exact h1 fuel hf, h2⟩

/-- **C94.** C81 for polygons, with any root finder: for the contours the bounds of the coordinates are not needed. -/
theorem C94_winding (he : 0 < cfg.eps) (hpp : Searches cfg.pp) (hf : OneFirst cfg.first) (hP : LoosePolygons cfg.eps (as ++ bs)) (rule : FillRule) (op : Op) :
    ∃ N t' cs, (∀ fuel, N ≤ fuel → polylineOp cfg as bs rule op fuel = .ok (buildPolylines as bs).1 t' cs) ∧
      ∀ x z, OffEdges cfg.eps (as ++ bs) x z →
        (Combine op (InShape rule (as.map fun ps => windPolyline ps x z).sum) (InShape rule (bs.map fun ps => windPolyline ps x z).sum) →
          windContours (buildPolylines as bs).1 t' cs x z = 1) ∧
        (¬ Combine op (InShape rule (as.map fun ps => windPolyline ps x z).sum) (InShape rule (bs.map fun ps => windPolyline ps x z).sum) →
          windContours (buildPolylines as bs).1 t' cs x z = 0) := by
  obtain ⟨ideal, hid⟩ := Geom.findsRoots_exists
  obtain ⟨N, t', cs, h1, h2⟩ := C81_polygons (cfg := { cfg with solve := ideal }) he hpp hid hf hP rule op
  exact ⟨N, t', cs, fun fuel hf => by rw [← C94_contours cfg ideal]; exact h1 fuel hf, h2⟩

theorem returns_free (ideal : ℝ → ℝ → ℝ → ℝ → List ℝ) {again : Nat → Nat → Bool} {rule : FillRule} {op : Op} {out : List OutContour} :
    Returns { cfg with solve := ideal } again as bs rule op out ↔ Returns cfg again as bs rule op out := by
  unfold Returns
  simp only [C94_paths cfg ideal]

/-- **C94.** The laws of C86 with any root finder. -/
theorem C94_laws {again again' : Nat → Nat → Bool} {rule : FillRule} (he : 0 < cfg.eps) (hpp : Searches cfg.pp) (hf : OneFirst cfg.first)
    (hP : LoosePolygons cfg.eps (as ++ bs)) (hB : BeyondCorners cfg (as ++ bs)) :
    (∀ op, op ≠ .difference → ∀ out out', Returns cfg again as bs rule op out → Returns cfg again' bs as rule op out' → ∀ x z, Distant cfg.eps (as ++ bs) x z →
      windOut out x z = windOut out' x z) ∧
    ∀ u i d d' e, Returns cfg again as bs rule .union u → Returns cfg again as bs rule .intersection i → Returns cfg again as bs rule .difference d →
      Returns cfg again bs as rule .difference d' → Returns cfg again as bs rule .xor e → ∀ x z, Distant cfg.eps (as ++ bs) x z →
        (Encloses rule as x z → windOut i x z + windOut d x z = 1) ∧ (¬ Encloses rule as x z → windOut i x z + windOut d x z = 0) ∧
        windOut u x z = windOut i x z + windOut d x z + windOut d' x z ∧ windOut e x z = windOut d x z + windOut d' x z ∧
        windOut e x z = windOut u x z - windOut i x z := by
  obtain ⟨ideal, hid⟩ := Geom.findsRoots_exists
  constructor
  · intro op hop out out' h h' x z hx
    exact C86_commutative (cfg := { cfg with solve := ideal }) he hpp hid hf hP hB hop ((returns_free ideal).2 h) ((returns_free ideal).2 h') hx
  · intro u i d d' e hu hi hd hd' hx x z hz
    exact C86_parts (cfg := { cfg with solve := ideal }) he hpp hid hf hP hB ((returns_free ideal).2 hu) ((returns_free ideal).2 hi) ((returns_free ideal).2 hd)
      ((returns_free ideal).2 hd') ((returns_free ideal).2 hx) hz

/-! ## Non-vacuity -/

/-- The exclusive or of two triangles that cross, with the root finder of the code (C92), drawn as paths. -/
theorem Cross.xor_code : ∃ sol, Geom.SolvesCubics sol ∧ ∃ N out,
    (∀ fuel, N ≤ fuel → binaryOpPaths { Cross.cfg' with solve := Geom.solveUnit sol } (fun _ _ => true) (outlines [Cross.up]) (outlines [Cross.upsideDown]) .nonZero .xor fuel = .ok out) ∧
    RightPaths (1 / 100) [Cross.up] [Cross.upsideDown] .nonZero .xor out := by
  obtain ⟨sol, hs⟩ := Geom.solvesCubics_exists
  refine ⟨sol, hs, ?_⟩
  obtain ⟨N, out, h1, h2⟩ := C94_crossing (cfg := { Cross.cfg' with solve := Geom.solveUnit sol }) (as := [Cross.up]) (bs := [Cross.upsideDown]) (fun _ _ => true)
    (by norm_num [Cross.cfg', Cross.cfg]) Ex.searches Cross.oneFirst Cross.loose Cross.beyond .nonZero .xor
  exact ⟨N, out, fun fuel hf => by rw [C85_outlines _ Cross.proper_up Cross.proper_down]; exact h1 fuel hf, h2⟩

end Verif.Full
