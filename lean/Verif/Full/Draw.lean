import Verif.Full.Layout
import Verif.Full.Outline
import Verif.Path.Props

/-!
# The paths of straight contours

If all input segments are straight, the path of a contour is the closed polygon through the points of the contour.
-/

namespace Verif.Full
open Verif.Segs (Segments PathSeg PathEl)
open Verif.Topo (Half)
set_option linter.unusedSectionVars false

variable {W : Type} [AddCommGroup W] [DecidableEq W] {s : Segments ℝ} {t : Topo.Topo ℝ W} {pos : Nat → Pos.OPath}

/-- No input segment is a part of a curve. -/
def Unsplit (s : Segments ℝ) : Prop := ∀ i < s.len, (source s).split i = (0, 1)

theorem unsplit_polylines (as bs : List (List (Segs.Pt ℝ))) : Unsplit (buildPolylines as bs).1 := by
  intro i hi
  have hm := buildPolylines_made as bs
  rw [made_len hm] at hi
  have hget := List.getElem?_eq_getElem hi
  have hin := List.getElem_mem hi
  obtain ⟨o, t, ho⟩ : ∃ o t, (((as.flatMap fun ps => (Segs.closedEdges ps).map (Segs.edgeOrigin 0 1)).map fun o => (o, true)) ++
      (bs.flatMap fun ps => (Segs.closedEdges ps).map (Segs.edgeOrigin 0 1)).map fun o => (o, false))[i] = (o, t) := ⟨_, _, rfl⟩
  rw [ho] at hget hin
  obtain ⟨its, e1, -, -, e4, -⟩ := hm.adds
  have h1 : (its.map Segs.Item.origin)[i]? = some o := by rw [e1, List.getElem?_map, hget]; rfl
  rw [List.getElem?_map] at h1
  obtain ⟨it, h2, rfl⟩ := Option.map_eq_some_iff.1 h1
  have hr : it.origin.range = (0, 1) := by
    simp only [List.mem_append, List.mem_map, List.mem_flatMap] at hin
    rcases hin with ⟨o', ⟨ps, hps, e, he, rfl⟩, h⟩ | ⟨o', ⟨ps, hps, e, he, rfl⟩, h⟩ <;>
    · rw [Prod.mk.injEq] at h
      rw [← h.1]; rfl
  have h3 : (buildPolylines as bs).1.splitFromPredecessor[i]? = some it.split := by rw [e4]; simp [Segments.empty, h2]
  change ((buildPolylines as bs).1.splitFromPredecessor[i]?).getD (0, 1) = (0, 1)
  rw [h3]
  exact hr

theorem canMerge_unsplit (h : Half) (hs : (source s).split (t.origSeg h.idx) = (0, 1)) : Path.canMerge t (source s) pos h = none := by
  cases hc : Path.canMerge t (source s) pos h with
  | none => rfl
  | some τ =>
    rw [Path.canMerge_iff] at hc
    obtain ⟨-, -, -, h4, -⟩ := hc
    rw [hs] at h4
    split at h4
    · exact absurd h4.1 (lt_irrefl _)
    · exact absurd h4.1 (lt_irrefl _)

/-- The output segment is drawn as a straight line. -/
def Straight (t : Topo.Topo ℝ W) (pos : Nat → Pos.OPath) (i : Nat) : Prop := pos i = ⟨Path.pt t ⟨i, true⟩, [.line (Path.pt t ⟨i, false⟩)], some 0⟩

theorem oriented_straight {h : Half} (hs : Straight t pos h.idx) : Path.oriented pos h = [.line (Path.pt t h)] := by
  obtain ⟨i, b⟩ := h
  unfold Path.oriented
  rw [hs]
  cases b
  · rfl
  · rfl

theorem pathLoop_straight (l : List Half) (hs : ∀ h ∈ l, Straight t pos h.idx ∧ (source s).split (t.origSeg h.idx) = (0, 1)) (ret : List Pos.El) :
    Path.pathLoop t (source s) pos l none ret = ret ++ l.map fun h => .line (Path.pt t h) := by
  induction l generalizing ret with
  | nil => simp [Path.pathLoop]
  | cons h l ih =>
    obtain ⟨h1, h2⟩ := hs h List.mem_cons_self
    rw [Path.pathLoop_plain (Or.inr rfl), canMerge_unsplit h h2, ih fun x hx => hs x (List.mem_cons_of_mem _ hx), oriented_straight h1]
    simp

theorem segsToPath_straight (h : Half) (l : List Half) (hs : ∀ x ∈ h :: l, Straight t pos x.idx ∧ (source s).split (t.origSeg x.idx) = (0, 1)) :
    Path.segsToPath t (source s) pos (h :: l) = some (Path.pt t h.other, (h :: l).map fun x => .line (Path.pt t x)) := by
  have h1 : Path.canMerge t (source s) pos h.other = none := canMerge_unsplit _ (hs h List.mem_cons_self).2
  unfold Path.segsToPath
  rw [List.findIdx?_cons, if_pos (by simp [h1])]
  simp only [List.getElem?_cons_zero, List.drop_zero, List.take_zero, List.append_nil]
  rw [pathLoop_straight _ hs, List.nil_append]

/-- `kurbo::segments` of a path of straight lines that ends where it begins. -/
theorem kurbo_closed (start : Segs.Pt ℝ) (ps : List (Segs.Pt ℝ)) : ∀ last, (last :: ps).getLast? = some start →
    Segs.kurboSegments (some (start, last)) (ps.map .lineTo ++ [.closePath]) = some (((last :: ps).zip ps).map fun e => .line e.1 e.2) := by
  induction ps with
  | nil =>
    intro last h
    have : last = start := by simpa using h
    simp [Segs.kurboSegments, Segs.kurboStep, this]
  | cons p ps ih =>
    intro last h
    have := ih p (by rw [← h, List.getLast?_cons_cons])
    simp only [List.map_cons, List.cons_append, Segs.kurboSegments, Segs.kurboStep, this, List.zip_cons_cons]
    rfl

theorem pathSegs_closed (p : Segs.Pt ℝ) (ps : List (Segs.Pt ℝ)) (h : (p :: ps).getLast? = some p) :
    pathSegs (.moveTo p :: (ps.map .lineTo ++ [.closePath])) = some (((p :: ps).zip ps).map fun e => .line e.1 e.2) := by
  unfold pathSegs
  have h1 : Segs.takeSubpath (ps.map .lineTo ++ [.closePath]) = (ps.map .lineTo ++ [.closePath], ([] : List (PathEl ℝ))) := by
    have := takeSubpath_lines ps [] (Or.inl rfl)
    rwa [List.append_nil] at this
  have h2 : Segs.kurboSegments none (.moveTo p :: (ps.map .lineTo ++ [.closePath])) = some (((p :: ps).zip ps).map fun e => .line e.1 e.2) := by
    have e : Segs.kurboSegments none (.moveTo p :: (ps.map .lineTo ++ [.closePath])) = (Segs.kurboSegments (some (p, p)) (ps.map .lineTo ++ [.closePath])) := by
      simp only [Segs.kurboSegments, Segs.kurboStep, List.nil_append]
      cases Segs.kurboSegments (some (p, p)) (ps.map .lineTo ++ [.closePath]) <;> rfl
    rw [e, kurbo_closed p ps p h]
  rw [Segs.subpaths, h1]
  simp only [Segs.subpaths, Segs.allSome, h2, Option.map_some, List.flatten_cons, List.flatten_nil, List.append_nil]

/-- The path is a closed polygon with the given edges. -/
def Drawn (path : List (PathEl ℝ)) (es : List (Segs.Pt ℝ × Segs.Pt ℝ)) : Prop :=
  ∃ p ps, path = .moveTo p :: (ps.map .lineTo ++ [.closePath]) ∧ ps.getLast? = some p ∧ es = (p :: ps).zip ps

theorem Drawn.segs {path : List (PathEl ℝ)} {es : List (Segs.Pt ℝ × Segs.Pt ℝ)} (h : Drawn path es) : pathSegs path = some (es.map fun e => .line e.1 e.2) := by
  obtain ⟨p, ps, rfl, h2, rfl⟩ := h
  refine pathSegs_closed p ps ?_
  cases ps with
  | nil => simp at h2
  | cons a l => rw [List.getLast?_cons_cons]; exact h2

/-- The path of a straight contour: the lines between consecutive points of the contour. -/
theorem contour_path {segs : List Half} (hc : Contours.Closed t segs)
    (hs : ∀ x ∈ segs, Straight t pos x.idx ∧ (source s).split (t.origSeg x.idx) = (0, 1)) :
    ∃ r, Path.segsToPath t (source s) pos segs = some r ∧ Drawn (bezPath r) (segs.map fun x => (unpt (Path.pt t x.other), unpt (Path.pt t x))) := by
  cases segs with
  | nil => exact absurd rfl hc.1
  | cons h l =>
    refine ⟨_, segsToPath_straight h l hs, unpt (Path.pt t h.other), (h :: l).map fun x => unpt (Path.pt t x), ?_, ?_, ?_⟩
    · unfold bezPath
      simp only [List.map_map]
      rfl
    · obtain ⟨w1, w2⟩ := Path.closed_rotate (A := []) (B := l) (s := h) hc rfl
      rw [List.append_nil] at w1 w2
      rw [List.getLast?_map]
      obtain ⟨z, hz⟩ : ∃ z, (h :: l).getLast? = some z := ⟨_, List.getLast?_eq_some_getLast (by simp)⟩
      rw [hz, Option.map_some, (w2 z hz).pt]
    · obtain ⟨w1, -⟩ := Path.closed_rotate (A := []) (B := l) (s := h) hc rfl
      rw [List.append_nil] at w1
      have key : ∀ (l : List Half) (p : Geom.Pt), l.IsChain (Path.Walk t) → (∀ x ∈ l.head?, Path.pt t x.other = p) →
          l.map (fun x => (unpt (Path.pt t x.other), unpt (Path.pt t x))) = (unpt p :: l.map fun x => unpt (Path.pt t x)).zip (l.map fun x => unpt (Path.pt t x)) := by
        intro l
        induction l with
        | nil => intro p _ _; rfl
        | cons a l ih =>
          intro p hw hp
          rw [List.isChain_cons] at hw
          rw [List.map_cons, List.map_cons, List.zip_cons_cons, hp a (by simp), ih (Path.pt t a) hw.2 ?_]
          intro x hx
          exact (hw.1 x hx).pt
      exact key (h :: l) _ w1 (by intro x hx; simp at hx; rw [hx])

end Verif.Full
