import Verif.Full.Accept
import Verif.Full.Wind
import Verif.Segs.Stable

/-!
# Polygons as paths

A polygon can be given as a list of points (`from_polylines_binary`) or as a path with lines (`from_paths_binary`). If no edge has length zero the two give
the same result.
-/

namespace Verif.Full
open Verif.Segs (Segments PathSeg PathEl)
set_option linter.unusedSectionVars false

/-- The path that draws a polygon: `MoveTo`, `LineTo`s and `ClosePath`. -/
def outline : List (Segs.Pt ℝ) → List (PathEl ℝ)
  | [] => []
  | p :: ps => .moveTo p :: (ps.map .lineTo ++ [.closePath])

/-- The path that draws several polygons. -/
def outlines (pss : List (List (Segs.Pt ℝ))) : List (PathEl ℝ) := pss.flatMap outline

/-- No edge has length zero. -/
def Proper (pss : List (List (Segs.Pt ℝ))) : Prop := ∀ ps ∈ pss, ∀ e ∈ Segs.closedEdges ps, e.1 ≠ e.2

theorem takeSubpath_lines (ps : List (Segs.Pt ℝ)) (rest : List (PathEl ℝ)) (hr : rest = [] ∨ ∃ p rest', rest = .moveTo p :: rest') :
    Segs.takeSubpath (ps.map .lineTo ++ [.closePath] ++ rest) = (ps.map .lineTo ++ [.closePath], rest) := by
  induction ps with
  | nil => rcases hr with rfl | ⟨p, rest', rfl⟩ <;> rfl
  | cons p ps ih =>
    rw [List.map_cons, List.cons_append, List.cons_append]
    rw [Segs.takeSubpath, ih]
    intro q; simp

theorem outlines_head (pss : List (List (Segs.Pt ℝ))) : outlines pss = [] ∨ ∃ p rest, outlines pss = .moveTo p :: rest := by
  induction pss with
  | nil => exact Or.inl rfl
  | cons ps pss ih =>
    cases ps with
    | nil => simpa [outlines, outline] using ih
    | cons p ps => exact Or.inr ⟨p, _, rfl⟩

/-- The subpaths are the outlines of the polygons. -/
theorem subpaths_outlines (pss : List (List (Segs.Pt ℝ))) : Segs.subpaths (outlines pss) = (pss.filter (· ≠ [])).map outline := by
  induction pss with
  | nil => simp [outlines, Segs.subpaths]
  | cons ps pss ih =>
    cases ps with
    | nil => simpa [outlines, outline] using ih
    | cons p ps =>
      have e : outlines ((p :: ps) :: pss) = .moveTo p :: (ps.map .lineTo ++ [.closePath] ++ outlines pss) := by simp [outlines, outline]
      rw [e, Segs.subpaths, takeSubpath_lines ps _ (outlines_head pss), ih]
      simp [outline]

theorem kurbo_lines (start : Segs.Pt ℝ) (ps : List (Segs.Pt ℝ)) : ∀ last, (∀ e ∈ (last :: ps).zip (ps ++ [start]), e.1 ≠ e.2) →
    Segs.kurboSegments (some (start, last)) (ps.map .lineTo ++ [.closePath]) = some (((last :: ps).zip (ps ++ [start])).map fun e => .line e.1 e.2) := by
  induction ps with
  | nil =>
    intro last h
    have : last ≠ start := h (last, start) (by simp)
    simp [Segs.kurboSegments, Segs.kurboStep, this]
  | cons p ps ih =>
    intro last h
    have := ih p (fun e he => h e (by simp only [List.cons_append, List.zip_cons_cons]; exact List.mem_cons_of_mem _ he))
    simp only [List.map_cons, List.cons_append, Segs.kurboSegments, Segs.kurboStep, this, List.zip_cons_cons]
    rfl

/-- The curves of the outline of a polygon are its edges. -/
theorem kurbo_outline (ps : List (Segs.Pt ℝ)) (h : ∀ e ∈ Segs.closedEdges ps, e.1 ≠ e.2) :
    Segs.kurboSegments none (outline ps) = some ((Segs.closedEdges ps).map fun e => .line e.1 e.2) := by
  cases ps with
  | nil => rfl
  | cons p ps =>
    have hs : Segs.kurboSegments none (outline (p :: ps)) = (Segs.kurboSegments (some (p, p)) (ps.map .lineTo ++ [.closePath])) := by
      simp only [outline, Segs.kurboSegments, Segs.kurboStep, List.nil_append]
      cases Segs.kurboSegments (some (p, p)) (ps.map .lineTo ++ [.closePath]) <;> rfl
    rw [hs]
    cases ps with
    | nil => simp [Segs.kurboSegments, Segs.kurboStep, Segs.closedEdges]
    | cons q ps =>
      have e : Segs.closedEdges (p :: q :: ps) = (p :: q :: ps).zip (q :: ps ++ [p]) := by simp [Segs.closedEdges]
      rw [e] at h ⊢
      exact kurbo_lines p (q :: ps) p h

theorem bezItems_edge {e : Segs.Pt ℝ × Segs.Pt ℝ} (h : e.1 ≠ e.2) : Segs.bezItems 0 1 mono (.line e.1 e.2) = [Segs.polyItem 0 1 e] := by
  by_cases hl : e.1.lt e.2
  · have : e.1.le e.2 := Or.inl hl
    simp [Segs.bezItems, Segs.polyItem, hl, this, h]
  · have : ¬ e.1.le e.2 := by rintro (g | g) <;> contradiction
    simp [Segs.bezItems, Segs.polyItem, hl, this, h.symm]

theorem flatMap_edges {es : List (Segs.Pt ℝ × Segs.Pt ℝ)} (h : ∀ e ∈ es, e.1 ≠ e.2) :
    (es.map fun e => PathSeg.line e.1 e.2).flatMap (Segs.bezItems 0 1 mono) = es.map (Segs.polyItem 0 1) := by
  induction es with
  | nil => rfl
  | cons e es ih =>
    rw [List.map_cons, List.flatMap_cons, bezItems_edge (h e List.mem_cons_self), ih fun x hx => h x (List.mem_cons_of_mem _ hx)]
    rfl

/-- Adding the outline of a polygon is adding the polygon. -/
theorem addSubpath_outline {s : Segments ℝ} (hs : Segs.Lens s) (ps : List (Segs.Pt ℝ)) (h : ∀ e ∈ Segs.closedEdges ps, e.1 ≠ e.2) :
    s.addSubpath 0 1 mono true (outline ps) = .ok (s.addPolylineRaw 0 1 ps) := by
  have hk := kurbo_outline ps h
  have hr := Segs.subpath_refines 0 1 mono true s hs (outline ps)
  by_cases hlen : ps.length ≤ 1
  · have e : Segs.closedEdges ps = [] := by simp [Segs.closedEdges, hlen]
    rw [e] at hk
    simp [Segments.addSubpath, hk, Segments.pushItems, Segments.addPolylineRaw, hlen]
  have hcyc := Segs.cyclicPairs_eq ps (by omega)
  have hne : (Segs.closedEdges ps).map (Segs.polyItem 0 1) ≠ [] := by
    simp only [ne_eq, List.map_eq_nil_iff]
    rw [← hcyc]
    cases ps with
    | nil => simp at hlen
    | cons p ps =>
      cases ps with
      | nil => simp at hlen
      | cons q ps => simp [Segs.cyclicPairs, Segs.pairs]
  have hraw : s.addPolylineRaw 0 1 ps = Segs.appendBlock s ((Segs.closedEdges ps).map (Segs.polyItem 0 1), .cycle) := by
    rw [Segs.addPolylineRaw_eq 0 1 s hs ps (by omega), hcyc]
  have hfix := Segs.fixup_eq s hs _ .cycle hne
  rw [hraw, ← hfix]
  have hflat := flatMap_edges h
  generalize hits : (Segs.closedEdges ps).map (Segs.polyItem 0 1) = its at *
  have hpos : 0 < its.length := List.length_pos_iff.2 hne
  simp only [Segments.addSubpath, hk, hflat, Segs.len_pushItems] at hr ⊢
  rw [if_pos (by omega)] at hr ⊢
  obtain ⟨f, hf⟩ : ∃ f, its[0]? = some f := ⟨its[0], by simp [hpos]⟩
  obtain ⟨l, hl⟩ : ∃ l, its[its.length - 1]? = some l := ⟨its[its.length - 1], by simp⟩
  have b1 := (Segs.block_lookup hs (its, .dangling) hf).2.2.2.2.1
  have b2 := (Segs.block_lookup hs (its, .dangling) hl).2.2.2.2.2.1
  rw [← Segs.nofix_eq] at b1 b2
  have e2 : s.len + (its.length - 1) = s.len + its.length - 1 := by omega
  rw [Nat.add_zero] at b1
  rw [e2] at b2
  simp only [b1, b2] at hr ⊢
  have hclosed : f.ends.1 = l.ends.2 := by
    obtain ⟨a, hlead⟩ := Segs.closedEdges_leads ps (by rintro e; rw [e] at hits; exact hne (by rw [← hits]; rfl))
    have hends := (Segs.map_polyItem (K := ℝ) 0 1 (Segs.closedEdges ps)).1
    rw [hits] at hends
    rw [← hends] at hlead
    obtain ⟨k1, k2⟩ := hlead.ends (by simpa using hne)
    rw [List.head?_map, List.head?_eq_getElem?, hf] at k1
    rw [List.getLast?_map, List.getLast?_eq_getElem?, hl] at k2
    simp at k1 k2
    rw [k1, k2]
  rw [if_pos hclosed]
  rfl

theorem addSubpaths_outlines (pss : List (List (Segs.Pt ℝ))) (h : Proper pss) : ∀ {s : Segments ℝ}, Segs.Lens s →
    s.addSubpaths 0 1 mono true (Segs.subpaths (outlines pss)) = .ok (pss.foldl (Segments.addPolylineRaw 0 1) s) := by
  rw [subpaths_outlines]
  induction pss with
  | nil => intro s _; rfl
  | cons ps pss ih =>
    intro s hs
    have ih' := @ih fun x hx => h x (List.mem_cons_of_mem _ hx)
    rw [List.foldl_cons]
    by_cases hn : ps = []
    · subst hn
      have e : s.addPolylineRaw 0 1 [] = s := by simp [Segments.addPolylineRaw]
      rw [e]
      simpa using ih' hs
    · rw [List.filter_cons_of_pos (by simpa using hn), List.map_cons, Segments.addSubpaths, addSubpath_outline hs ps (h ps List.mem_cons_self)]
      exact ih' ((Segs.raw_refines 0 1 s hs ps).1.lens hs)

/-! ## The schedules -/

/-- The schedules play no part when polygons are added. -/
theorem raws_sched (pss : List (List (Segs.Pt ℝ))) : ∀ (s : Segments ℝ) (en ex : List (ℝ × Nat)),
    pss.foldl (Segments.addPolylineRaw 0 1) { s with enter := en, exit := ex } = { pss.foldl (Segments.addPolylineRaw 0 1) s with enter := en, exit := ex } := by
  induction pss with
  | nil => intro s en ex; rfl
  | cons ps pss ih =>
    intro s en ex
    have e : Segments.addPolylineRaw 0 1 { s with enter := en, exit := ex } ps = { s.addPolylineRaw 0 1 ps with enter := en, exit := ex } := by
      simp only [Segments.addPolylineRaw, Segments.len, Segs.pushItems_eq]
      split
      · rfl
      · split <;> rfl
    rw [List.foldl_cons, e, ih]
    rfl

theorem zipIdx_snd {α : Type} (l : List α) (k : Nat) : ((l.zipIdx k).map Prod.snd).Pairwise (· < ·) := by
  rw [List.zipIdx_map_snd]
  exact List.pairwise_lt_range'

/-- Sorting the schedules of the first polygons before the others are added changes nothing. -/
theorem update_twice {s1 s2 : Segments ℝ} {gs : List (Segs.Seg ℝ)} (h : s2.segs = s1.segs ++ gs) (he : s1.enter = []) (hx : s1.exit = []) :
    ({ s2 with enter := (s1.updateEnterExit atY 0).enter, exit := (s1.updateEnterExit atY 0).exit } : Segments ℝ).updateEnterExit atY s1.len =
      ({ s2 with enter := [], exit := [] } : Segments ℝ).updateEnterExit atY 0 := by
  have hz : s2.segs.zipIdx = s1.segs.zipIdx ++ gs.zipIdx s1.len := by
    rw [h, List.zipIdx_append]; simp [Segments.len]
  have hd : s2.segs.zipIdx.drop s1.len = gs.zipIdx s1.len := by
    rw [hz, List.drop_left' (by simp [Segments.len])]
  have hord := zipIdx_snd s2.segs 0
  unfold Segments.updateEnterExit
  simp only [he, hx, List.nil_append, List.drop_zero, hd, Segments.mk.injEq, true_and]
  constructor
  · rw [hz, List.map_append]
    refine Segs.mergeSort_twice (Segs.enterLe_trans atY s2.segs) (Segs.enterLe_total atY s2.segs) (Segs.enterLe_trans atY s1.segs) (Segs.enterLe_total atY s1.segs) ?_ ?_
    · intro a ha b hb
      have key : ∀ c ∈ (s1.segs.zipIdx.map fun g => (g.1.start.y, g.2)), ∀ y, Segs.xAt atY s1.segs c.2 y = Segs.xAt atY s2.segs c.2 y := by
        intro c hc y
        obtain ⟨g, hg, rfl⟩ := List.mem_map.1 hc
        have := List.snd_lt_of_mem_zipIdx hg
        unfold Segs.xAt
        rw [h, List.getElem?_append_left (by simpa using this)]
      unfold Segs.enterLe
      rw [key a ha, key b hb]
    · rw [← List.map_append, ← hz, List.map_map]
      exact hord
  · rw [hz, List.filter_append, List.map_append]
    refine Segs.mergeSort_twice ?_ ?_ ?_ ?_ (fun _ _ _ _ => rfl) ?_
    · intro a b c h1 h2; simp only [decide_eq_true_eq] at *; exact h1.trans h2
    · intro a b; simp only [Bool.or_eq_true, decide_eq_true_eq]; exact le_total _ _
    · intro a b c h1 h2; simp only [decide_eq_true_eq] at *; exact h1.trans h2
    · intro a b; simp only [Bool.or_eq_true, decide_eq_true_eq]; exact le_total _ _
    · rw [← List.map_append, ← List.filter_append, ← hz, List.map_map]
      have := hord.sublist (List.Sublist.map Prod.snd (List.filter_sublist (l := s2.segs.zipIdx) (p := fun g => !g.1.isHorizontal)))
      exact this

theorem raws_segs (pss : List (List (Segs.Pt ℝ))) (s : Segments ℝ) : ∃ gs, (pss.foldl (Segments.addPolylineRaw 0 1) s).segs = s.segs ++ gs := by
  obtain ⟨its, _, h, _⟩ := polylines_made pss s
  exact ⟨_, h⟩

/-- The arena of the outlines is the arena of the polygons. -/
theorem build_outlines {as bs : List (List (Segs.Pt ℝ))} (ha : Proper as) (hb : Proper bs) :
    buildPaths (tagged (outlines as) (outlines bs)) = .ok (buildPolylines as bs).1 (buildPolylines as bs).2 := by
  obtain ⟨s1, hs1⟩ : ∃ s1, s1 = as.foldl (Segments.addPolylineRaw 0 1) (Segments.empty : Segments ℝ) := ⟨_, rfl⟩
  obtain ⟨s2, hs2⟩ : ∃ s2, s2 = bs.foldl (Segments.addPolylineRaw 0 1) s1 := ⟨_, rfl⟩
  obtain ⟨r1, e1, x1⟩ := Segs.raws_refines (K := ℝ) 0 1 as Segments.empty Segs.lens_empty
  rw [← hs1] at r1 e1 x1
  have l1 := r1.lens Segs.lens_empty
  obtain ⟨r2, e2, x2⟩ := Segs.raws_refines (K := ℝ) 0 1 bs s1 l1
  rw [← hs2] at r2 e2 x2
  obtain ⟨gs, hgs⟩ := raws_segs bs s1
  rw [← hs2] at hgs
  have e1' : s1.enter = [] := e1
  have x1' : s1.exit = [] := x1
  have htwice := update_twice hgs e1' x1'
  have hself : ({ s2 with enter := [], exit := [] } : Segments ℝ) = s2 := by
    have k1 : s2.enter = [] := e2.trans e1'
    have k2 : s2.exit = [] := x2.trans x1'
    cases s2
    simp only at k1 k2
    subst k1 k2
    rfl
  rw [hself] at htwice
  -- the polygons
  have p1 : Segments.addClosedPolylines 0 1 atY (Segments.empty : Segments ℝ) as = s1.updateEnterExit atY 0 := by
    unfold Segments.addClosedPolylines
    rw [← hs1]; rfl
  have p2 : (s1.updateEnterExit atY 0).addClosedPolylines 0 1 atY bs = s2.updateEnterExit atY 0 := by
    unfold Segments.addClosedPolylines
    have : s1.updateEnterExit atY 0 = { s1 with enter := (s1.updateEnterExit atY 0).enter, exit := (s1.updateEnterExit atY 0).exit } := rfl
    rw [this, raws_sched, ← hs2]
    exact htwice
  have hpoly : buildPolylines as bs = (s2.updateEnterExit atY 0, resize (resize [] s1.len true) s2.len false) := by
    unfold buildPolylines
    simp only [p1, p2]
    rfl
  rw [hpoly]
  unfold buildPaths tagged
  simp only [addPaths, addSubpaths_outlines as ha Segs.lens_empty, ← hs1, addSubpaths_outlines bs hb l1, ← hs2]

/-- **C83.** A boolean operation on polygons that are drawn as paths (`MoveTo`, `LineTo`s, `ClosePath`) is the operation on the lists of their points, in
every respect, if no edge has length zero. -/
theorem C83_outlines (cfg : Cfg) {as bs : List (List (Segs.Pt ℝ))} (ha : Proper as) (hb : Proper bs) (rule : BinOp.FillRule) (op : BinOp.Op) (fuel : Nat) :
    binaryOp cfg (outlines as) (outlines bs) rule op fuel = polylineOp cfg as bs rule op fuel := by
  unfold binaryOp polylineOp
  rw [build_outlines ha hb]

/-! ## Winding numbers -/

theorem kurbo_filter (pss : List (List (Segs.Pt ℝ))) (h : Proper pss) :
    Segs.allSome (Segs.kurboSegments none) ((pss.filter (· ≠ [])).map outline) =
      some ((pss.filter (· ≠ [])).map fun ps => (Segs.closedEdges ps).map fun e => .line e.1 e.2) := by
  induction pss with
  | nil => rfl
  | cons ps pss ih =>
    have ih' := ih fun x hx => h x (List.mem_cons_of_mem _ hx)
    by_cases hn : ps = []
    · subst hn; simpa using ih'
    · rw [List.filter_cons_of_pos (by simpa using hn), List.map_cons, List.map_cons, Segs.allSome, kurbo_outline ps (h ps List.mem_cons_self), ih']

/-- The winding number of the outlines is the sum of those of the polygons. -/
theorem wind_outlines {pss : List (List (Segs.Pt ℝ))} (h : Proper pss) (x z : ℝ) : windPath (outlines pss) x z = (pss.map fun ps => windPolyline ps x z).sum := by
  unfold windPath pathSegs
  rw [subpaths_outlines, kurbo_filter pss h]
  simp only [Option.map_some, Option.getD_some]
  unfold windSegs
  induction pss with
  | nil => rfl
  | cons ps pss ih =>
    have ih' := ih fun y hy => h y (List.mem_cons_of_mem _ hy)
    rw [List.map_cons, List.sum_cons]
    by_cases hn : ps = []
    · subst hn
      simpa [windPolyline, Segs.closedEdges] using ih'
    · rw [List.filter_cons_of_pos (by simpa using hn), List.map_cons, List.flatten_cons, List.flatMap_append, List.map_append, List.sum_append, ih']
      congr 1
      have hp := h ps List.mem_cons_self
      unfold windPolyline
      generalize Segs.closedEdges ps = es at hp
      clear ih ih' h hn
      induction es with
      | nil => rfl
      | cons e es ih =>
        rw [List.map_cons, List.flatMap_cons, List.map_append, List.sum_append, ih fun y hy => hp y (List.mem_cons_of_mem _ hy), List.map_cons, List.sum_cons]
        congr 1
        simp [Segs.segOrigins, hp e List.mem_cons_self]

end Verif.Full
