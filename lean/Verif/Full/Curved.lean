import Verif.Full.Bundle
import Verif.Full.Beside
import Verif.Full.Returned

/-!
# C90: the returned paths, for curves

The whole of `binary_op`, from paths with curves to the returned paths with curves, for inputs in general position of which no curve is cut into pieces.
-/

namespace Verif.Full
open Verif.Segs (Segments PathEl PathSeg)
open Verif.Curve Verif.BinOp
open Verif.Topo (Half)
open Verif.Pos (El trace stopOf)
set_option linter.unusedSectionVars false

/-! ## Specification -/

/-- The point is horizontally more than `κ` away from all segments. -/
def Outside (κ : ℝ) (s : Segments ℝ) (x z : ℝ) : Prop := ∀ i, Has s z i → κ < |x - (segAt s i).atY z|

/-- The point is horizontally within `κ` of one of the segments. -/
def Close (κ : ℝ) (s : Segments ℝ) (x z : ℝ) : Prop := ∃ i, Has s z i ∧ |x - (segAt s i).atY z| ≤ κ

/-- A horizontal line with both ends within `eps` (in each coordinate) of points of the same segment. -/
def Level (eps : ℝ) (s : Segments ℝ) (g : PathSeg ℝ) : Prop := ∃ p q, g = .line p q ∧ p.y = q.y ∧ ∃ i < s.len,
  (∃ r, (segAt s i).On r ∧ |p.x - r.x| ≤ eps ∧ |p.y - r.y| ≤ eps) ∧ (∃ r, (segAt s i).On r ∧ |q.x - r.x| ≤ eps ∧ |q.y - r.y| ≤ eps)

/-- The second segment begins where the first ends. -/
def Joins (g h : PathSeg ℝ) : Prop := drawnX g 1 = drawnX h 0 ∧ drawnY g 1 = drawnY h 0

/-- Each segment begins where the one before it ends, and the first one where the last one ends. -/
def Loop (gs : List (PathSeg ℝ)) : Prop := gs.IsChain Joins ∧ ∀ g ∈ gs.head?, ∀ h ∈ gs.getLast?, Joins h g

/-- An element that draws a line or a curve. -/
def Stroke : PathEl ℝ → Prop
  | .lineTo _ => True
  | .quadTo _ _ => True
  | .curveTo _ _ _ => True
  | _ => False

/-- What a boolean operation should return: closed paths within `κ` of the input, nested as a forest (a contour without a parent is outer; the parent of a contour
comes earlier and has the opposite flag), that wind once around the points of the result and not at all around other points. -/
structure RightCurves (eps κ : ℝ) (s : Segments ℝ) (a b : List (PathEl ℝ)) (rule : FillRule) (op : Op) (out : List OutContour) : Prop where
  form : ∀ c ∈ out, ∃ p els, c.path = .moveTo p :: (els ++ [.closePath]) ∧ ∀ e ∈ els, Stroke e
  drawn : ∀ c ∈ out, ∃ gs, pathSegs c.path = some gs ∧ gs ≠ [] ∧ Loop gs ∧ ∀ g ∈ gs, Level eps s g ∨ ∀ u, 0 ≤ u → u ≤ 1 → Close κ s (drawnX g u) (drawnY g u)
  top : ∀ (i : Nat) (c : OutContour), out[i]? = some c → c.parent = none → c.outer = true
  tree : ∀ (i : Nat) (c : OutContour) (p : Nat), out[i]? = some c → c.parent = some p → p < i ∧ ∃ d : OutContour, out[p]? = some d ∧ c.outer = !d.outer
  winding : ∀ x z, Outside κ s x z →
    (Combine op (InShape rule (windPath a x z)) (InShape rule (windPath b x z)) → windOut out x z = 1) ∧
    (¬ Combine op (InShape rule (windPath a x z)) (InShape rule (windPath b x z)) → windOut out x z = 0)

/-! ## Contours -/

theorem elSeg_joins (p : Geom.Pt) (e : El) : (drawnX (elSeg p e) 0 = p.x ∧ drawnY (elSeg p e) 0 = p.y) ∧ drawnX (elSeg p e) 1 = e.stop.x ∧ drawnY (elSeg p e) 1 = e.stop.y := by
  cases e <;> simp [elSeg, drawnX, drawnY, unpt, El.stop]

theorem elSegs_chain (es : List El) : ∀ (p : Geom.Pt), (elSegs p es).IsChain Joins ∧ (∀ g ∈ (elSegs p es).head?, drawnX g 0 = p.x ∧ drawnY g 0 = p.y) ∧
    ∀ g ∈ (elSegs p es).getLast?, drawnX g 1 = (stopOf p es).x ∧ drawnY g 1 = (stopOf p es).y := by
  induction es with
  | nil => intro p; simp [elSegs]
  | cons e es ih =>
    intro p
    obtain ⟨h1, h2, h3⟩ := ih e.stop
    have hj := elSeg_joins p e
    refine ⟨?_, ?_, ?_⟩
    · rw [elSegs, List.isChain_cons]
      refine ⟨fun g hg => ?_, h1⟩
      have := h2 g hg
      exact ⟨by rw [hj.2.1, this.1], by rw [hj.2.2, this.2]⟩
    · intro g hg
      simp only [elSegs, List.head?_cons, Option.mem_some_iff] at hg
      rw [← hg]; exact hj.1
    · intro g hg
      rw [stopOf_cons]
      cases es with
      | nil =>
        simp only [elSegs, List.getLast?_singleton, Option.mem_some_iff] at hg
        rw [← hg]; exact hj.2
      | cons f es =>
        refine h3 g ?_
        rw [elSegs, elSegs, List.getLast?_cons_cons] at hg
        exact hg

theorem elSegs_loop {p : Geom.Pt} {es : List El} (h : stopOf p es = p) : Loop (elSegs p es) := by
  obtain ⟨h1, h2, h3⟩ := elSegs_chain es p
  refine ⟨h1, fun g hg k hk => ?_⟩
  have a := h2 g hg
  have b := h3 k hk
  rw [h] at b
  exact ⟨by rw [a.1, b.1], by rw [a.2, b.2]⟩

section
variable {W : Type} [AddCommGroup W] [DecidableEq W] {s : Segments ℝ} {t : Topo.Topo ℝ W} {pos : Nat → Pos.OPath}

theorem pathLoop_unsplit (l : List Half) (hs : ∀ h ∈ l, (source s).split (t.origSeg h.idx) = (0, 1)) (ret : List El) :
    Path.pathLoop t (source s) pos l none ret = ret ++ l.flatMap (Path.oriented pos) := by
  induction l generalizing ret with
  | nil => simp [Path.pathLoop]
  | cons h l ih =>
    rw [Path.pathLoop_plain (Or.inr rfl), canMerge_unsplit h (hs h List.mem_cons_self), ih fun x hx => hs x (List.mem_cons_of_mem _ hx)]
    simp

/-- If no curve is cut into pieces, the path of a contour consists of the paths of its segments. -/
theorem segsToPath_unsplit (h : Half) (l : List Half) (hs : ∀ x ∈ h :: l, (source s).split (t.origSeg x.idx) = (0, 1)) :
    Path.segsToPath t (source s) pos (h :: l) = some (Path.pt t h.other, (h :: l).flatMap (Path.oriented pos)) := by
  have h1 : Path.canMerge t (source s) pos h.other = none := canMerge_unsplit _ (hs h List.mem_cons_self)
  unfold Path.segsToPath
  rw [List.findIdx?_cons, if_pos (by simp [h1])]
  simp only [List.getElem?_cons_zero, List.drop_zero, List.take_zero, List.append_nil]
  rw [pathLoop_unsplit _ hs, List.nil_append]

/-- The path of an output segment, in the direction of the walk. -/
theorem half_els {x : Half} (h1 : (pos x.idx).start = Path.pt t ⟨x.idx, true⟩) (h2 : (pos x.idx).stop = Path.pt t ⟨x.idx, false⟩) :
    stopOf (Path.pt t x.other) (Path.oriented pos x) = Path.pt t x ∧ trace (Path.pt t x.other) (Path.oriented pos x) ⊆ trace (pos x.idx).start (pos x.idx).els := by
  obtain ⟨i, b⟩ := x
  dsimp only at h1 h2 ⊢
  rw [Pos.stop_eq] at h2
  cases b
  · simp only [Half.other, Bool.not_false, Path.oriented, Bool.false_eq_true, if_false]
    rw [← h1, ← h2]
    exact ⟨rfl, fun _ h => h⟩
  · simp only [Half.other, Bool.not_true, Path.oriented, if_true]
    rw [← h1, ← h2]
    obtain ⟨k1, k2⟩ := rev_trace (pos i).els (pos i).start
    exact ⟨k2, k1⟩

theorem walk_segs (l : List Half) : ∀ (p : Geom.Pt), l.IsChain (Path.Walk t) → (∀ x ∈ l.head?, Path.pt t x.other = p) →
    (∀ x ∈ l, stopOf (Path.pt t x.other) (Path.oriented pos x) = Path.pt t x) →
    elSegs p (l.flatMap (Path.oriented pos)) = l.flatMap (fun x => elSegs (Path.pt t x.other) (Path.oriented pos x)) ∧
      ∀ z ∈ l.getLast?, stopOf p (l.flatMap (Path.oriented pos)) = Path.pt t z := by
  induction l with
  | nil => intro p _ _ _; simp [elSegs]
  | cons a l ih =>
    intro p hw hp hst
    rw [List.isChain_cons] at hw
    have hpa := hp a (by simp)
    obtain ⟨k1, k2⟩ := ih (Path.pt t a) hw.2 (fun x hx => (hw.1 x hx).pt) fun x hx => hst x (List.mem_cons_of_mem _ hx)
    have hsa := hst a List.mem_cons_self
    constructor
    · rw [List.flatMap_cons, List.flatMap_cons, elSegs_append, ← hpa, hsa, k1]
    · intro z hz
      rw [List.flatMap_cons, Pos.stopOf_append, ← hpa, hsa]
      cases l with
      | nil =>
        simp only [List.getLast?_singleton, Option.mem_some_iff] at hz
        rw [← hz]; rfl
      | cons b l =>
        rw [List.getLast?_cons_cons] at hz
        exact k2 z hz

/-- The path of a contour. -/
theorem contour_els {segs : List Half} (hc : Contours.Closed t segs) (hs : ∀ x ∈ segs, (source s).split (t.origSeg x.idx) = (0, 1))
    (hp : ∀ x ∈ segs, (pos x.idx).start = Path.pt t ⟨x.idx, true⟩ ∧ (pos x.idx).stop = Path.pt t ⟨x.idx, false⟩) :
    ∃ r, Path.segsToPath t (source s) pos segs = some r ∧
      pathSegs (bezPath r) = some (segs.flatMap fun x => elSegs (Path.pt t x.other) (Path.oriented pos x)) ∧
      Loop (segs.flatMap fun x => elSegs (Path.pt t x.other) (Path.oriented pos x)) := by
  cases segs with
  | nil => exact absurd rfl hc.1
  | cons h l =>
    obtain ⟨w1, w2⟩ := Path.closed_rotate (A := []) (B := l) (s := h) hc rfl
    rw [List.append_nil] at w1 w2
    obtain ⟨k1, k2⟩ := walk_segs (pos := pos) (h :: l) (Path.pt t h.other) w1 (by simp) fun x hx => (half_els (hp x hx).1 (hp x hx).2).1
    have hstop : stopOf (Path.pt t h.other) ((h :: l).flatMap (Path.oriented pos)) = Path.pt t h.other := by
      obtain ⟨z, hz⟩ : ∃ z, (h :: l).getLast? = some z := ⟨_, List.getLast?_eq_some_getLast (by simp)⟩
      rw [k2 z hz, (w2 z hz).pt]
    refine ⟨_, segsToPath_unsplit h l hs, ?_, ?_⟩
    · rw [pathSegs_els _ _ hstop, k1]
    · rw [← k1]; exact elSegs_loop hstop

open Classical in
/-- Away from the input the path of an output segment is on the same side of the point as the input segment that it comes from. -/
theorem half_wind {κ u z : ℝ} (hF : Follows κ s t pos) (hx : Outside κ s u z) (hκ : 0 ≤ κ) {x : Half} (hi : x.idx < t.n) {p q : ℝ × ℝ} (hr : Topo.Runs t x.idx p q) (hpq : p.2 ≤ q.2)
    (h1 : (pos x.idx).start = Path.pt t ⟨x.idx, true⟩) (h2 : (pos x.idx).stop = Path.pt t ⟨x.idx, false⟩)
    (h3 : (Path.pt t ⟨x.idx, true⟩).y = (Path.pt t ⟨x.idx, false⟩).y → (pos x.idx).els = [.line (Path.pt t ⟨x.idx, false⟩)]) :
    windSegs (elSegs (Path.pt t x.other) (Path.oriented pos x)) u z = if LeftAt s t u z x.idx then (if x.first then -1 else 1) else 0 := by
  obtain ⟨e1, e2⟩ := pt_of_runs hr
  obtain ⟨k1, k2⟩ := half_els h1 h2
  have hAl : LeftAt s t u z x.idx ↔ (p.2 ≤ z ∧ z < q.2) ∧ (segAt s (t.origSeg x.idx)).atY z < u := by
    constructor
    · rintro ⟨⟨-, p', q', hpq', l1, l2⟩, l3⟩
      obtain ⟨a, b, k1, k2, k3, k4⟩ := hr
      obtain ⟨rfl, rfl⟩ := Merge.runs_iff k1 k2 k3 k4 hpq'
      exact ⟨⟨l1, l2⟩, l3⟩
    · rintro ⟨⟨l1, l2⟩, l3⟩
      exact ⟨⟨hi, p, q, hr, l1, l2⟩, l3⟩
  have sides : above z (Path.pt t x.other).y - above z (Path.pt t x).y = (if x.first then -1 else 1) * (above z p.2 - above z q.2) := by
    obtain ⟨i, b⟩ := x
    cases b
    · simp only [Half.other, Bool.not_false, e1, e2, Bool.false_eq_true, if_false]; ring
    · simp only [Half.other, Bool.not_true, e1, e2, if_true]; ring
  have hab : above z p.2 - above z q.2 = if p.2 ≤ z ∧ z < q.2 then 1 else 0 := by
    unfold above
    by_cases c1 : p.2 ≤ z
    · by_cases c2 : z < q.2
      · rw [if_pos c1, if_neg (not_le.2 c2), if_pos ⟨c1, c2⟩]; rfl
      · rw [if_pos c1, if_pos (not_lt.1 c2), if_neg fun k => c2 k.2]; rfl
    · rw [if_neg c1, if_neg fun k => c1 (hpq.trans k), if_neg fun k => c1 k.1]; rfl
  rcases hpq.lt_or_eq with hlt | heq
  · obtain ⟨f1, f2, f3, f4⟩ := hF x.idx hi (by rw [e1, e2]; exact hlt)
    rw [e1] at f2 f4
    rw [e2] at f3 f4
    dsimp only at f2 f3 f4
    by_cases cz : p.2 ≤ z ∧ z ≤ q.2
    · have hz : Has s z (t.origSeg x.idx) := ⟨f1, f2.trans cz.1, cz.2.trans f3⟩
      have ho := hx _ hz
      rw [lt_abs] at ho
      rcases ho with ho | ho
      · rw [wind_left _ fun P hP hPz => by
          have := (f4 P (k2 hP)).2
          rw [hPz, abs_le] at this
          linarith [this.2], k1, sides, hab]
        by_cases c2 : z < q.2
        · rw [if_pos (show p.2 ≤ z ∧ z < q.2 from ⟨cz.1, c2⟩), if_pos (hAl.2 ⟨⟨cz.1, c2⟩, by linarith⟩), mul_one]
        · rw [if_neg (show ¬ (p.2 ≤ z ∧ z < q.2) from fun k => c2 k.2), if_neg fun k => c2 (hAl.1 k).1.2, mul_zero]
      · rw [wind_right _ fun P hP hPz => by
          have := (f4 P (k2 hP)).2
          rw [hPz, abs_le] at this
          linarith [this.1], if_neg fun k => by linarith [(hAl.1 k).2]]
    · rw [wind_right _ fun P hP hPz => absurd (by rw [← hPz]; exact (f4 P (k2 hP)).1) cz, if_neg fun k => cz ⟨(hAl.1 k).1.1, (hAl.1 k).1.2.le⟩]
  · rw [if_neg fun k => by linarith [(hAl.1 k).1.1, (hAl.1 k).1.2]]
    have hels := h3 (by rw [e1, e2]; exact heq)
    have hline : ∃ a b : Geom.Pt, a.y = b.y ∧ elSegs (Path.pt t x.other) (Path.oriented pos x) = [.line (unpt a) (unpt b)] := by
      obtain ⟨i, b⟩ := x
      dsimp only at hels h1 e1 e2
      cases b
      · refine ⟨Path.pt t ⟨i, true⟩, Path.pt t ⟨i, false⟩, by rw [e1, e2]; exact heq, ?_⟩
        simp only [Half.other, Bool.not_false, Path.oriented, Bool.false_eq_true, if_false, hels]
        rfl
      · refine ⟨Path.pt t ⟨i, false⟩, Path.pt t ⟨i, true⟩, by rw [e1, e2]; exact heq.symm, ?_⟩
        simp only [Half.other, Bool.not_true, Path.oriented, if_true, hels, h1]
        rfl
    obtain ⟨a, b, hab', e⟩ := hline
    rw [e]
    have := segOrigins_lines [(unpt a, unpt b)] u z
    simp only [List.map_cons, List.map_nil, List.sum_cons, List.sum_nil, add_zero] at this
    rw [this]
    exact cross_flat (g := .line (unpt a) (unpt b)) hab' u z

end

/-! ## Boolean operations -/

theorem Outside.off {cfg : Cfg} {s : Segments ℝ} {T : Type} {tags : List T} {ρ : Nat → ℝ} {μ σ Wd H : ℝ} (ha : Arena s tags) (he : 0 < cfg.eps) (hM : Mild cfg.eps ρ s μ σ Wd H)
    (hρ : ∀ i, Slanted s i → ρ i ≤ 2 * cfg.eps) {x z : ℝ} (h : Outside (driftOf cfg.eps μ σ Wd H) s x z) : OffCurves cfg.eps ρ s x z := by
  intro i hi
  have hd := hi.1.down ha
  have hmove : ∀ y, |y - z| ≤ 2 * cfg.eps → (segAt s i).start.y ≤ y → y ≤ (segAt s i).stop.y → |(segAt s i).atY y - (segAt s i).atY z| ≤ μ * (2 * cfg.eps) := by
    intro y hy h0 h1
    refine le_trans ?_ (mul_le_mul_of_nonneg_left hy hM.mu)
    rcases le_total z y with hzy | hzy
    · rw [abs_of_nonneg (by linarith : 0 ≤ y - z)]
      exact atY_steep hd (hM.steep i hi.1) hi.2.1 hzy h1
    · rw [abs_sub_comm, abs_sub_comm y, abs_of_nonneg (by linarith : 0 ≤ z - y)]
      exact atY_steep hd (hM.steep i hi.1) h0 hzy hi.2.2
  have hr := hρ i hi.1
  have h1 : 0 ≤ μ * cfg.eps := mul_nonneg hM.mu he.le
  have h2 : 0 ≤ σ * cfg.eps := mul_nonneg hM.sigma.1 he.le
  have h3 : 0 ≤ σ * H := mul_nonneg hM.sigma.1 hM.high
  have h4 := hM.width
  have ho := h i hi
  unfold driftOf at ho
  rw [lt_abs] at ho
  rcases ho with ho | ho
  · left
    intro y hy k0 k1
    have := hmove y hy k0 k1
    rw [abs_le] at this
    linarith [this.1, this.2]
  · right
    intro y hy k0 k1
    have := hmove y hy k0 k1
    rw [abs_le] at this
    linarith [this.1, this.2]

open Classical in
/-- What is drawn, for any winding number and any predicate. -/
theorem draw_curves {T W : Type} [AddCommGroup W] [DecidableEq W] {single : T → Bool → W} {cfg : Cfg} {tags : List T} {s : Segments ℝ} {ρ : Nat → ℝ}
    {inside : W → Bool} {fuel2 fuel fuel3 : Nat} {t t' : Topo.Topo ℝ W} {cs : List Contours.Contour} {μ σ Wd H : ℝ} (again : Nat → Nat → Bool)
    (ha : Arena s tags) (he : 0 < cfg.eps) (hpp : Searches cfg.pp) (hsolve : Geom.FindsRoots cfg.solve) (hfi : OneFirst cfg.first)
    (hn : ∀ t b, single t (!b) = - single t b) (hV : (env cfg s).Valid (contribution single tags) fuel2) (h1 : sweep cfg single s tags fuel2 fuel = some t)
    (h2 : Merge.mergeCoincident (close cfg.eps s) t = some t') (h3 : Contours.contours t' inside fuel3 = some cs) (hacc : Accurate cfg.eps s t') (hU : Unsplit s)
    (hL : LooseCurves cfg.eps ρ s) (hM : Mild cfg.eps ρ s μ σ Wd H) :
    ∃ M out, (∀ n, M ≤ n → ∃ pos, layout cfg again s t' n = some pos ∧ drawContours s t' pos cs = some out) ∧
      (∀ c ∈ out, ∃ p els, c.path = .moveTo p :: (els ++ [.closePath]) ∧ ∀ e ∈ els, Stroke e) ∧
      (∀ c ∈ out, ∃ gs, pathSegs c.path = some gs ∧ gs ≠ [] ∧ Loop gs ∧
        ∀ g ∈ gs, Level cfg.eps s g ∨ ∀ u, 0 ≤ u → u ≤ 1 → Close (driftOf cfg.eps μ σ Wd H) s (drawnX g u) (drawnY g u)) ∧
      (∀ (i : Nat) (c : OutContour), out[i]? = some c → c.parent = none → c.outer = true) ∧
      (∀ (i : Nat) (c : OutContour) (p : Nat), out[i]? = some c → c.parent = some p → p < i ∧ ∃ d : OutContour, out[p]? = some d ∧ c.outer = !d.outer) ∧
      ∀ x z, Outside (driftOf cfg.eps μ σ Wd H) s x z → windOut out x z = windContours s t' cs x z := by
  obtain ⟨M, pos, l1, l2, l3, l4⟩ := layout_any ha he hpp hsolve hfi hn hV h1 h2 hacc hL hM again
  obtain ⟨t1, hm1, e1, e2, e3, e4, -⟩ := Sweep.C61_merge hV h1 (close cfg.eps s)
  obtain rfl : t1 = t' := by rw [h2] at hm1; simpa using hm1.symm
  obtain ⟨Hd, hr, _⟩ := Sweep.driver_run hV h1
  have hcons := Merge.C26_consistent hV.neg hr (end_adjacent ha he hV h1) h2
  have hidx : ∀ C ∈ cs, ∀ x ∈ C.path, x.idx < t1.n := by
    intro C hC x hx
    have hp := Contours.C27_partition t1 _ hcons _ cs h3
    have : x.idx ∈ (cs.flatMap Contours.Contour.path).map Half.idx := List.mem_map_of_mem (List.mem_flatMap.2 ⟨C, hC, hx⟩)
    have := hp.mem_iff.1 this
    rw [List.mem_filter, List.mem_range] at this
    exact this.1
  have hruns : ∀ i < t1.n, ∃ p q, Topo.Runs t1 i p q ∧ p.2 ≤ q.2 := by
    intro i hi
    rw [e1] at hi
    obtain ⟨p, q, hpq⟩ := runs_of_sweep hV h1 hi
    refine ⟨p, q, ?_, (runs_within hV h1 hi hpq).2.2⟩
    unfold Topo.Runs at hpq ⊢
    rw [e2, e3]; exact hpq
  have horig : ∀ i < t1.n, t1.origSeg i < s.len := by
    intro i hi
    obtain ⟨p, q, hpq, -⟩ := hruns i hi
    exact (hacc i hi p q hpq).1
  have hκ : 0 ≤ driftOf cfg.eps μ σ Wd H := by
    have k1 : 0 ≤ μ * cfg.eps := mul_nonneg hM.mu he.le
    have k2 : 0 ≤ σ * cfg.eps := mul_nonneg hM.sigma.1 he.le
    have k3 : 0 ≤ σ * H := mul_nonneg hM.sigma.1 hM.high
    have k4 := hM.width
    unfold driftOf; linarith
  have hdraw : ∀ C ∈ cs, ∃ r, Path.segsToPath t1 (source s) pos C.path = some r ∧
      pathSegs (bezPath r) = some (C.path.flatMap fun x => elSegs (Path.pt t1 x.other) (Path.oriented pos x)) ∧
      Loop (C.path.flatMap fun x => elSegs (Path.pt t1 x.other) (Path.oriented pos x)) := by
    intro C hC
    refine contour_els (Contours.C28_closed_simple t1 _ hcons _ cs h3 C hC).1 (fun x hx => hU _ (horig _ (hidx C hC x hx))) fun x hx => ?_
    obtain ⟨k1, k2, -⟩ := l2 x.idx (hidx C hC x hx)
    exact ⟨k1, k2⟩
  obtain ⟨f, hf⟩ : ∃ f : List Half → List (PathEl ℝ), ∀ C ∈ cs, ∃ r, Path.segsToPath t1 (source s) pos C.path = some r ∧ f C.path = bezPath r := by
    refine ⟨fun l => ((Path.segsToPath t1 (source s) pos l).map bezPath).getD [], fun C hC => ?_⟩
    obtain ⟨r, hr, -⟩ := hdraw C hC
    exact ⟨r, hr, by dsimp only; rw [hr]; rfl⟩
  have hfd : ∀ C ∈ cs, pathSegs (f C.path) = some (C.path.flatMap fun x => elSegs (Path.pt t1 x.other) (Path.oriented pos x)) ∧
      Loop (C.path.flatMap fun x => elSegs (Path.pt t1 x.other) (Path.oriented pos x)) := by
    intro C hC
    obtain ⟨r, r1, r2⟩ := hf C hC
    obtain ⟨r', r3, r4⟩ := hdraw C hC
    rw [r1, Option.some.injEq] at r3
    rw [r2, r3]; exact r4
  refine ⟨M, cs.map fun C => ⟨f C.path, C.parent, C.outer⟩, fun n hn => ⟨pos, l1 n hn, drawContours_of f hf⟩, ?_, ?_, ?_, ?_, ?_⟩
  · intro c hc
    obtain ⟨C, hC, rfl⟩ := List.mem_map.1 hc
    obtain ⟨r, -, r2⟩ := hf C hC
    refine ⟨unpt r.1, r.2.map pathEl, r2, ?_⟩
    intro e hs
    obtain ⟨e', -, rfl⟩ := List.mem_map.1 hs
    cases e' <;> exact trivial
  · intro c hc
    obtain ⟨C, hC, rfl⟩ := List.mem_map.1 hc
    obtain ⟨g1, g2⟩ := hfd C hC
    refine ⟨_, g1, ?_, g2, ?_⟩
    · intro hnil
      rw [List.flatMap_eq_nil_iff] at hnil
      have hne : C.path ≠ [] := (Contours.C28_closed_simple t1 _ hcons _ cs h3 C hC).1.1
      obtain ⟨x, hx⟩ := List.exists_mem_of_ne_nil _ hne
      have := hnil x hx
      obtain ⟨-, -, k3⟩ := l2 x.idx (hidx C hC x hx)
      have ho : Path.oriented pos x ≠ [] := by
        unfold Path.oriented
        split
        · cases hq : (pos x.idx).els with
          | nil => exact absurd hq k3
          | cons e es => simp [Path.revEls]
        · exact k3
      cases hq : Path.oriented pos x with
      | nil => exact ho hq
      | cons e es => rw [hq] at this; simp [elSegs] at this
    · intro g hg
      obtain ⟨x, hx, hgx⟩ := List.mem_flatMap.1 hg
      have hi := hidx C hC x hx
      obtain ⟨p, q, hpq, hle⟩ := hruns x.idx hi
      obtain ⟨b1, b2⟩ := pt_of_runs hpq
      obtain ⟨k1, k2, -⟩ := l2 x.idx hi
      rcases hle.lt_or_eq with hlt | heq
      · right
        intro u u0 u1
        obtain ⟨m1, m2, m3, m4⟩ := l4 x.idx hi (by rw [b1, b2]; exact hlt)
        obtain ⟨m5, m6⟩ := m4 _ ((half_els k1 k2).2 (elSegs_trace _ hgx u u0 u1))
        exact ⟨t1.origSeg x.idx, ⟨m1, m2.trans m5.1, m5.2.trans m3⟩, m6⟩
      · left
        have hels := l3 x.idx hi (by rw [b1, b2]; exact heq)
        obtain ⟨c1, c2, c3⟩ := hacc x.idx hi p q hpq
        obtain ⟨i, b⟩ := x
        dsimp only at hels k1 k2 b1 b2 c1 c2 c3
        cases b
        · simp only [Half.other, Bool.not_false, Path.oriented, Bool.false_eq_true, if_false, hels, elSegs, elSeg, List.mem_singleton] at hgx
          refine ⟨_, _, hgx, by rw [b1, b2]; exact heq, t1.origSeg i, c1, ?_, ?_⟩
          · rw [b1]; exact c2
          · rw [b2]; exact c3
        · simp only [Half.other, Bool.not_true, Path.oriented, if_true, hels, Path.revEls, Path.El.rev, k1, List.nil_append, elSegs, elSeg, List.mem_singleton] at hgx
          refine ⟨_, _, hgx, by rw [b1, b2]; exact heq.symm, t1.origSeg i, c1, ?_, ?_⟩
          · rw [b2]; exact c3
          · rw [b1]; exact c2
  · intro i c hc hp
    rw [List.getElem?_map] at hc
    obtain ⟨C, hC, rfl⟩ := Option.map_eq_some_iff.1 hc
    exact (Contours.C29_forest t1 _ hcons _ cs h3 i C hC).1 hp
  · intro i c p hc hp
    rw [List.getElem?_map] at hc
    obtain ⟨C, hC, rfl⟩ := Option.map_eq_some_iff.1 hc
    obtain ⟨g1, P, g2, g3⟩ := (Contours.C29_forest t1 _ hcons _ cs h3 i C hC).2 p hp
    exact ⟨g1, ⟨f P.path, P.parent, P.outer⟩, by rw [List.getElem?_map, g2]; rfl, g3⟩
  · intro x z hx
    have key : windOut (cs.map fun C => ⟨f C.path, C.parent, C.outer⟩) x z = windContours s t1 cs x z := by
      unfold windOut windContours Merge.signedCount
      rw [List.map_map, List.map_flatMap, sum_flatMap]
      congr 1
      refine List.map_congr_left fun C hC => ?_
      rw [Function.comp_apply, windPath, (hfd C hC).1, Option.getD_some]
      have : ∀ l : List Half, (∀ y ∈ l, y ∈ C.path) → windSegs (l.flatMap fun x => elSegs (Path.pt t1 x.other) (Path.oriented pos x)) x z =
          (l.map fun h => if LeftAt s t1 x z h.idx then (if h.first then -1 else 1) else 0).sum := by
        intro l
        induction l with
        | nil => intro _; rfl
        | cons y l ih =>
          intro hl
          rw [List.flatMap_cons, windSegs_append, ih fun y' hy' => hl y' (List.mem_cons_of_mem _ hy'), List.map_cons, List.sum_cons]
          congr 1
          have hi := hidx C hC y (hl y List.mem_cons_self)
          obtain ⟨p, q, hpq, hle⟩ := hruns y.idx hi
          obtain ⟨k1, k2, -⟩ := l2 y.idx hi
          exact half_wind l4 hx hκ hi hpq hle k1 k2 (l3 y.idx hi)
      convert this C.path (fun _ h => h)
    exact key

/-- **C90.** A boolean operation on paths with curves, in general position and with no curve cut into pieces, returns, and the returned paths are right. -/
theorem C90_curves {cfg : Cfg} {s : Segments ℝ} {tags : List Bool} {ρ : Nat → ℝ} {a b : List (PathEl ℝ)} {μ σ Wd H : ℝ} (again : Nat → Nat → Bool) (he : 0 < cfg.eps)
    (hpp : Searches cfg.pp) (hsolve : Geom.FindsRoots cfg.solve) (hf : OneFirst cfg.first) (hb : buildPaths (tagged a b) = .ok s tags) (hU : Unsplit s)
    (hL : LooseCurves cfg.eps ρ s) (hT : Tight cfg.eps ρ s) (hB : Beyond cfg s) (hM : Mild cfg.eps ρ s μ σ Wd H) (hρ : ∀ i, Slanted s i → ρ i ≤ 2 * cfg.eps)
    (rule : FillRule) (op : Op) :
    ∃ N out, (∀ fuel, N ≤ fuel → binaryOpPaths cfg again a b rule op fuel = .ok out) ∧ RightCurves cfg.eps (driftOf cfg.eps μ σ Wd H) s a b rule op out := by
  have ha := buildPaths_arena hb
  obtain ⟨N, t', cs, hN, hw⟩ := C87_curves he hpp hsolve hf hb hL rule op
  have hacc := C84_curves he hpp hsolve hf (hN N le_rfl) hL hT hB
  obtain ⟨s0, tags0, hb0, h0⟩ := binaryOp_ok (hN N le_rfl)
  obtain ⟨rfl, t, h1, h2, h3⟩ := finish_ok h0
  obtain rfl : tags0 = tags := by rw [hb] at hb0; injection hb0 with _ e; exact e.symm
  have hG := general_of_curves ha he hsolve hf hL
  have hV := env_valid ha he hpp _ BinaryWinding.single_neg (general_order ha he hpp hsolve hf hG N)
  obtain ⟨M, out, d1, d2, d3, d4, d5, d6⟩ := draw_curves again ha he hpp hsolve hf BinaryWinding.single_neg hV h1 h2 h3 hacc hU hL hM
  refine ⟨max N M, out, draw_fuel (o := binaryOp cfg a b rule op) hN (fun n hn => ?_), d2, d3, d4, d5, fun x z hx => ?_⟩
  · obtain ⟨pos, p1, p2⟩ := d1 n hn
    simp only [Outcome.draw, p1, p2]
  · rw [d6 x z hx]
    exact hw x z (hx.off ha he hM hρ)

end Verif.Full
