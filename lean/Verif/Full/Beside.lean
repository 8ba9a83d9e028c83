import Verif.Full.Drawn
import Verif.Full.Paths
import Verif.Full.Outline
import Verif.Pos.Deviation

/-!
# The winding of a path of which all points at a height are on one side

All points of a path at the height `z` are to the left of `x`: it winds around `(x, z)` as often as its end is below its start. All are to the right: it does not wind at all.
-/

namespace Verif.Full
open Verif.Segs (PathSeg PathEl)
open Verif.Pos (El trace stopOf)

open Classical in
/-- Is the height `y` not below `z`? -/
noncomputable def above (z y : ℝ) : ℤ := if y ≤ z then 1 else 0

/-! ## Pieces of curves -/

theorem along_left {c : Geom.Cubic} {g : Segs.Seg ℝ} {u e x z : ℝ} (h : Along c g u e) (hl : ∀ v, u ≤ v → v ≤ e → (c.eval v).y = z → (c.eval v).x < x) :
    cross g x z = above z (c.eval u).y - above z (c.eval e).y := by
  have hcont : ContinuousOn (fun v => (c.eval v).y) (Set.uIcc u e) := by
    refine Continuous.continuousOn ?_
    simp only [Geom.Cubic.eval, Geom.bez3]; fun_prop
  have hs := h.start
  have he := h.stop
  rcases h.way with ⟨h1, h2, -⟩ | ⟨h1, h2, -⟩
  · have hlt := h1 u e le_rfl h.lt le_rfl
    rw [cross_fwd (by rw [hs, he]; exact hlt.le), hs, he]
    unfold above
    by_cases c1 : (c.eval u).y ≤ z
    · by_cases c2 : z < (c.eval e).y
      · obtain ⟨v, hv, hz⟩ := intermediate_value_uIcc hcont (show z ∈ Set.uIcc _ _ by rw [Set.mem_uIcc]; exact .inl ⟨c1, c2.le⟩)
        rw [Set.uIcc_of_le h.lt.le] at hv
        dsimp only at hz
        rw [if_pos ⟨c1, c2, by rw [← hz, h2 v hv.1 hv.2]; exact hl v hv.1 hv.2 hz⟩, if_pos c1, if_neg (not_le.2 c2)]; rfl
      · rw [if_neg (fun k => c2 k.2.1), if_pos c1, if_pos (not_lt.1 c2)]; rfl
    · rw [if_neg (fun k => c1 k.1), if_neg c1, if_neg (fun k => c1 (hlt.le.trans k))]; rfl
  · have hlt := h1 u e le_rfl h.lt le_rfl
    have key := cross_rev (g := g.rev) (by rw [rev_start, rev_stop, hs, he]; exact hlt.le) x z
    rw [rev_rev, rev_start, rev_stop, hs, he] at key
    rw [key]
    unfold above
    by_cases c1 : (c.eval e).y ≤ z
    · by_cases c2 : z < (c.eval u).y
      · obtain ⟨v, hv, hz⟩ := intermediate_value_uIcc hcont (show z ∈ Set.uIcc _ _ by rw [Set.mem_uIcc]; exact .inr ⟨c1, c2.le⟩)
        rw [Set.uIcc_of_le h.lt.le] at hv
        dsimp only at hz
        rw [if_pos ⟨c1, c2, by rw [← hz, h2 v hv.1 hv.2]; exact hl v hv.1 hv.2 hz⟩, if_pos c1, if_neg (not_le.2 c2)]; rfl
      · rw [if_neg (fun k => c2 k.2.1), if_pos c1, if_pos (not_lt.1 c2)]; rfl
    · rw [if_neg (fun k => c1 k.1), if_neg c1, if_neg (fun k => c1 (hlt.le.trans k))]; rfl

theorem along_right {c : Geom.Cubic} {g : Segs.Seg ℝ} {u e x z : ℝ} (h : Along c g u e) (hl : ∀ v, u ≤ v → v ≤ e → (c.eval v).y = z → x ≤ (c.eval v).x) :
    cross g x z = 0 := by
  have hcont : ContinuousOn (fun v => (c.eval v).y) (Set.uIcc u e) := by
    refine Continuous.continuousOn ?_
    simp only [Geom.Cubic.eval, Geom.bez3]; fun_prop
  have hs := h.start
  have he := h.stop
  rcases h.way with ⟨h1, h2, -⟩ | ⟨h1, h2, -⟩
  · have hlt := h1 u e le_rfl h.lt le_rfl
    rw [cross_fwd (by rw [hs, he]; exact hlt.le), hs, he, if_neg]
    rintro ⟨c1, c2, c3⟩
    obtain ⟨v, hv, hz⟩ := intermediate_value_uIcc hcont (show z ∈ Set.uIcc _ _ by rw [Set.mem_uIcc]; exact .inl ⟨c1, c2.le⟩)
    rw [Set.uIcc_of_le h.lt.le] at hv
    dsimp only at hz
    rw [← hz, h2 v hv.1 hv.2] at c3
    linarith [hl v hv.1 hv.2 hz]
  · have hlt := h1 u e le_rfl h.lt le_rfl
    have key := cross_rev (g := g.rev) (by rw [rev_start, rev_stop, hs, he]; exact hlt.le) x z
    rw [rev_rev, rev_start, rev_stop, hs, he] at key
    rw [key, if_neg]
    rintro ⟨c1, c2, c3⟩
    obtain ⟨v, hv, hz⟩ := intermediate_value_uIcc hcont (show z ∈ Set.uIcc _ _ by rw [Set.mem_uIcc]; exact .inr ⟨c1, c2.le⟩)
    rw [Set.uIcc_of_le h.lt.le] at hv
    dsimp only at hz
    rw [← hz, h2 v hv.1 hv.2] at c3
    linarith [hl v hv.1 hv.2 hz]

theorem cut_left {c : Geom.Cubic} {x z : ℝ} (gs : List (Segs.Seg ℝ)) : ∀ {u : ℝ}, Cut c u gs → (∀ v, u ≤ v → v ≤ 1 → (c.eval v).y = z → (c.eval v).x < x) →
    (gs.map fun g => cross g x z).sum = above z (c.eval u).y - above z (c.eval 1).y := by
  induction gs with
  | nil => intro u h _; have : u = 1 := h; subst this; simp
  | cons g gs ih =>
    rintro u ⟨e, h1, h2⟩ hl
    rw [List.map_cons, List.sum_cons, ih h2 fun v a b => hl v (h1.lt.le.trans a) b, along_left h1 fun v a b => hl v a (b.trans h2.le)]
    ring

theorem cut_right {c : Geom.Cubic} {x z : ℝ} (gs : List (Segs.Seg ℝ)) : ∀ {u : ℝ}, Cut c u gs → (∀ v, u ≤ v → v ≤ 1 → (c.eval v).y = z → x ≤ (c.eval v).x) →
    (gs.map fun g => cross g x z).sum = 0 := by
  induction gs with
  | nil => intro u h _; rfl
  | cons g gs ih =>
    rintro u ⟨e, h1, h2⟩ hl
    rw [List.map_cons, List.sum_cons, ih h2 fun v a b => hl v (h1.lt.le.trans a) b, along_right h1 fun v a b => hl v a (b.trans h2.le), add_zero]

theorem eval_ends (c : Geom.Cubic) : (c.eval 0).y = c.p0.y ∧ (c.eval 1).y = c.p3.y := by
  simp [Geom.Cubic.eval, Geom.bez3]

/-- The pieces of a curve that is not horizontal are a cut; those of a horizontal one do not cross anything. -/
theorem pieces_cut (c : Geom.Cubic) : Cut c 0 ((Geom.monotonicPieces c).map pieceSeg) ∨
    (c.p0.y = c.p3.y ∧ ∀ x z, (((Geom.monotonicPieces c).map pieceSeg).map fun g => cross g x z).sum = 0) := by
  by_cases hf : c.NotFlat
  · exact .inl (chain_cut c _ 0 (Geom.piecesFrom_chain hf _ 0 zero_lt_one (Geom.speedRoots_ok c).1).1)
  · right
    obtain ⟨h1, h2⟩ := Geom.C65_flat c hf
    have hy : c.p0.y = c.p3.y := by
      unfold Geom.Cubic.NotFlat at hf
      rw [not_not] at hf
      rw [hf.1, hf.2.1, hf.2.2]
    refine ⟨hy, fun x z => ?_⟩
    by_cases he : c.p0 = c.p3
    · rw [h2 he]; rfl
    · obtain ⟨q, e, e0, e3, _⟩ := h1 he
      rw [e]
      have : pieceSeg ⟨0, 1, q⟩ = .line (unpt q.p0) (unpt q.p3) := by
        unfold pieceSeg
        exact if_pos (by simp only [e0, e3]; exact hy)
      simp only [List.map_cons, List.map_nil, this, List.sum_cons, List.sum_nil, add_zero]
      apply cross_flat
      change q.p0.y = q.p3.y
      rw [e0, e3]; exact hy

/-- The pieces that are stored for a segment of a path. -/
theorem origins_cut (g : PathSeg ℝ) : ∃ gs : List (Segs.Seg ℝ), (∀ x z, ((Segs.segOrigins 0 1 mono g).map fun o => cross o.curve x z).sum = (gs.map fun g => cross g x z).sum) ∧
    (Cut (toCubic g) 0 gs ∨ ((toCubic g).p0.y = (toCubic g).p3.y ∧ ∀ x z, (gs.map fun g => cross g x z).sum = 0)) := by
  have curve : ∀ x z, (((mono g).map fun m : Segs.Cubic ℝ × ℝ × ℝ =>
      (⟨if m.1.p0.y = m.1.p3.y then .line m.1.p0 m.1.p3 else .cubic m.1.p0 m.1.p1 m.1.p2 m.1.p3, m.2, g⟩ : Segs.Origin ℝ)).map fun o => cross o.curve x z).sum =
      (((Geom.monotonicPieces (toCubic g)).map pieceSeg).map fun g => cross g x z).sum := by
    intro x z
    unfold mono
    rw [List.map_map, List.map_map, List.map_map]
    rfl
  cases g with
  | line p q =>
    simp only [Segs.segOrigins]
    by_cases he : p = q
    · subst he
      exact ⟨[], by simp, .inr ⟨rfl, fun _ _ => rfl⟩⟩
    · refine ⟨[.line p q], by simp [he], ?_⟩
      by_cases hy : p.y = q.y
      · refine .inr ⟨hy, fun x z => ?_⟩
        simp only [List.map_cons, List.map_nil, List.sum_cons, List.sum_nil, add_zero]
        exact cross_flat (g := .line p q) hy x z
      · exact .inl (line_cut p q hy)
  | quad p q r => exact ⟨_, curve, pieces_cut _⟩
  | cubic p q r t => exact ⟨_, curve, pieces_cut _⟩

theorem origins_left (g : PathSeg ℝ) {x z : ℝ} (h : ∀ v, 0 ≤ v → v ≤ 1 → drawnY g v = z → drawnX g v < x) :
    ((Segs.segOrigins 0 1 mono g).map fun o => cross o.curve x z).sum = above z (drawnY g 0) - above z (drawnY g 1) := by
  obtain ⟨gs, h1, h2⟩ := origins_cut g
  rw [h1, ← (toCubic_drawn g 0).2, ← (toCubic_drawn g 1).2]
  rcases h2 with h2 | ⟨h2, h3⟩
  · refine cut_left gs h2 fun v a b c => ?_
    rw [(toCubic_drawn g v).2] at c
    rw [(toCubic_drawn g v).1]; exact h v a b c
  · rw [h3, (eval_ends _).1, (eval_ends _).2, h2, sub_self]

theorem origins_right (g : PathSeg ℝ) {x z : ℝ} (h : ∀ v, 0 ≤ v → v ≤ 1 → drawnY g v = z → x ≤ drawnX g v) :
    ((Segs.segOrigins 0 1 mono g).map fun o => cross o.curve x z).sum = 0 := by
  obtain ⟨gs, h1, h2⟩ := origins_cut g
  rw [h1]
  rcases h2 with h2 | ⟨h2, h3⟩
  · refine cut_right gs h2 fun v a b c => ?_
    rw [(toCubic_drawn g v).2] at c
    rw [(toCubic_drawn g v).1]; exact h v a b c
  · exact h3 x z

/-! ## Paths -/

/-- The segment of a path that an element is, if the path has come to `p`. -/
def elSeg (p : Geom.Pt) : El → PathSeg ℝ
  | .line q => .line (unpt p) (unpt q)
  | .quad a q => .quad (unpt p) (unpt a) (unpt q)
  | .curve a b q => .cubic (unpt p) (unpt a) (unpt b) (unpt q)

/-- The segments of a path that begins at `p`. -/
def elSegs : Geom.Pt → List El → List (PathSeg ℝ)
  | _, [] => []
  | p, e :: es => elSeg p e :: elSegs e.stop es

theorem stopOf_cons (p : Geom.Pt) (e : El) (es : List El) : stopOf p (e :: es) = stopOf e.stop es := by
  unfold stopOf
  cases es with
  | nil => rfl
  | cons f es =>
    rw [List.getLast?_cons_cons]
    cases h : (f :: es).getLast? with
    | none => simp at h
    | some g => rfl

theorem elSegs_append (a : List El) : ∀ (p : Geom.Pt) (b : List El), elSegs p (a ++ b) = elSegs p a ++ elSegs (stopOf p a) b := by
  induction a with
  | nil => intro p b; rfl
  | cons e a ih =>
    intro p b
    rw [List.cons_append, elSegs, elSegs, ih, List.cons_append]
    rw [stopOf_cons]

theorem elSeg_trace (p : Geom.Pt) (e : El) {v : ℝ} (h0 : 0 ≤ v) (h1 : v ≤ 1) : (⟨drawnX (elSeg p e) v, drawnY (elSeg p e) v⟩ : Geom.Pt) ∈ e.trace p := by
  cases e with
  | line q =>
    refine ⟨v, h0, h1, ?_⟩
    ext <;> simp only [elSeg, drawnX, drawnY, unpt, Geom.Pt.affine]
  | quad a q =>
    refine ⟨v, h0, h1, ?_⟩
    ext <;> simp only [elSeg, drawnX, drawnY, unpt, Geom.Quad.eval, Geom.bez2]
  | curve a b q =>
    refine ⟨v, h0, h1, ?_⟩
    ext <;> simp only [elSeg, drawnX, drawnY, unpt, Geom.Cubic.eval, Geom.bez3]

theorem elSeg_ends (p : Geom.Pt) (e : El) : drawnY (elSeg p e) 0 = p.y ∧ drawnY (elSeg p e) 1 = e.stop.y := by
  cases e <;> simp [elSeg, drawnY, unpt, El.stop]

/-- The segments of a path draw its points. -/
theorem elSegs_trace (es : List El) : ∀ {p : Geom.Pt} {g : PathSeg ℝ}, g ∈ elSegs p es → ∀ v, 0 ≤ v → v ≤ 1 → (⟨drawnX g v, drawnY g v⟩ : Geom.Pt) ∈ trace p es := by
  induction es with
  | nil => intro p g h; simp [elSegs] at h
  | cons e es ih =>
    intro p g h v h0 h1
    rcases List.mem_cons.1 h with rfl | h
    · exact .inl (elSeg_trace p e h0 h1)
    · exact .inr (ih h v h0 h1)

theorem windSegs_cons (g : PathSeg ℝ) (gs : List (PathSeg ℝ)) (x z : ℝ) :
    windSegs (g :: gs) x z = ((Segs.segOrigins 0 1 mono g).map fun o => cross o.curve x z).sum + windSegs gs x z := by
  unfold windSegs
  rw [List.flatMap_cons, List.map_append, List.sum_append]

theorem windSegs_append (a b : List (PathSeg ℝ)) (x z : ℝ) : windSegs (a ++ b) x z = windSegs a x z + windSegs b x z := by
  unfold windSegs
  rw [List.flatMap_append, List.map_append, List.sum_append]

/-- All points at the height are on the left. -/
theorem wind_left (es : List El) {x z : ℝ} : ∀ {p : Geom.Pt}, (∀ P ∈ trace p es, P.y = z → P.x < x) → windSegs (elSegs p es) x z = above z p.y - above z (stopOf p es).y := by
  induction es with
  | nil => intro p _; simp [elSegs, windSegs, stopOf]
  | cons e es ih =>
    intro p h
    rw [elSegs, windSegs_cons, ih fun P hP => h P (.inr hP), origins_left _ fun v h0 h1 hv => h _ (.inl (elSeg_trace p e h0 h1)) hv, (elSeg_ends p e).1, (elSeg_ends p e).2,
      stopOf_cons]
    ring

/-- All points at the height are on the right. -/
theorem wind_right (es : List El) {x z : ℝ} : ∀ {p : Geom.Pt}, (∀ P ∈ trace p es, P.y = z → x ≤ P.x) → windSegs (elSegs p es) x z = 0 := by
  induction es with
  | nil => intro p _; simp [elSegs, windSegs]
  | cons e es ih =>
    intro p h
    rw [elSegs, windSegs_cons, ih fun P hP => h P (.inr hP), origins_right _ fun v h0 h1 hv => h _ (.inl (elSeg_trace p e h0 h1)) hv, add_zero]

theorem el_rev_trace (p : Geom.Pt) (e : El) : (Path.El.rev p e).trace e.stop ⊆ e.trace p := by
  cases e with
  | line q =>
    rintro P ⟨v, h0, h1, rfl⟩
    refine ⟨1 - v, by linarith, by linarith, ?_⟩
    ext <;> simp only [El.stop, Geom.Pt.affine] <;> ring
  | quad a q =>
    rintro P ⟨v, h0, h1, rfl⟩
    refine ⟨1 - v, by linarith, by linarith, ?_⟩
    ext <;> simp only [El.stop, Geom.Quad.eval, Geom.bez2] <;> ring
  | curve a b q =>
    rintro P ⟨v, h0, h1, rfl⟩
    refine ⟨1 - v, by linarith, by linarith, ?_⟩
    ext <;> simp only [El.stop, Geom.Cubic.eval, Geom.bez3] <;> ring

theorem el_rev_stop (p : Geom.Pt) (e : El) : (Path.El.rev p e).stop = p := by cases e <;> rfl

/-- The reversed path has the same points and ends where the path begins. -/
theorem rev_trace (es : List El) : ∀ (p : Geom.Pt), trace (stopOf p es) (Path.revEls p es) ⊆ trace p es ∧ stopOf (stopOf p es) (Path.revEls p es) = p := by
  induction es with
  | nil => intro p; exact ⟨fun P hP => hP, rfl⟩
  | cons e es ih =>
    intro p
    rw [stopOf_cons, Path.revEls]
    obtain ⟨h1, h2⟩ := ih e.stop
    constructor
    · rw [Pos.trace_append, h2]
      rintro P (hP | hP)
      · exact .inr (h1 hP)
      · rcases hP with hP | hP
        · exact .inl (el_rev_trace p e hP)
        · exact absurd hP (by simp [trace])
    · rw [Pos.stopOf_append, h2]
      exact el_rev_stop p e

/-! ## Closed paths -/

theorem takeSubpath_els (es : List El) : Segs.takeSubpath (es.map pathEl ++ [.closePath]) = (es.map pathEl ++ [.closePath], ([] : List (PathEl ℝ))) := by
  induction es with
  | nil => rfl
  | cons e es ih =>
    rw [List.map_cons, List.cons_append, Segs.takeSubpath, ih]
    cases e <;> simp [pathEl]

theorem kurbo_els (start : Geom.Pt) (es : List El) : ∀ last, stopOf last es = start →
    Segs.kurboSegments (some (unpt start, unpt last)) (es.map pathEl ++ [.closePath]) = some (elSegs last es) := by
  induction es with
  | nil =>
    intro last h
    have : last = start := h
    simp [Segs.kurboSegments, Segs.kurboStep, this, elSegs]
  | cons e es ih =>
    intro last h
    rw [stopOf_cons] at h
    have := ih e.stop h
    cases e <;> simp only [El.stop] at this <;>
      simp only [List.map_cons, List.cons_append, Segs.kurboSegments, Segs.kurboStep, pathEl, this, elSegs, elSeg, List.nil_append, El.stop]

/-- The segments of a closed path. -/
theorem pathSegs_els (p : Geom.Pt) (es : List El) (h : stopOf p es = p) : pathSegs (bezPath (p, es)) = some (elSegs p es) := by
  unfold pathSegs bezPath
  have h2 : Segs.kurboSegments none (.moveTo (unpt p) :: (es.map pathEl ++ [.closePath])) = some (elSegs p es) := by
    have e : Segs.kurboSegments none (.moveTo (unpt p) :: (es.map pathEl ++ [.closePath])) = (Segs.kurboSegments (some (unpt p, unpt p)) (es.map pathEl ++ [.closePath])) := by
      simp only [Segs.kurboSegments, Segs.kurboStep, List.nil_append]
      cases Segs.kurboSegments (some (unpt p, unpt p)) (es.map pathEl ++ [.closePath]) <;> rfl
    rw [e, kurbo_els p es p h]
  rw [Segs.subpaths, takeSubpath_els]
  simp only [Segs.subpaths, Segs.allSome, h2, Option.map_some, List.flatten_cons, List.flatten_nil, List.append_nil]

end Verif.Full
