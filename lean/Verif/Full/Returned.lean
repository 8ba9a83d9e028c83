import Verif.Full.Draw
import Verif.Full.Accurate
import Verif.Full.LooseExample
import Verif.Full.OutlineExample
import Verif.Full.Accept

/-!
# The returned paths

For polygons everything is put together: from the input to the paths that a boolean operation returns.
-/

namespace Verif.Full
open Verif.Segs (Segments PathSeg PathEl)
open Verif.BinOp (FillRule Op BinaryWinding InShape Combine)
open Verif.Topo (Half)
set_option linter.unusedSectionVars false

/-! ## Specification -/

/-- The point is more than `eps` away (in one of the coordinates) from all points of the edges of the polygons. -/
def Distant (eps : ℝ) (pss : List (List (Segs.Pt ℝ))) (x z : ℝ) : Prop :=
  ∀ ps ∈ pss, ∀ e ∈ Segs.closedEdges ps, ∀ v : ℝ, 0 ≤ v → v ≤ 1 →
    eps < |x - ((1 - v) * e.1.x + v * e.2.x)| ∨ eps < |z - ((1 - v) * e.1.y + v * e.2.y)|

/-- All of the line is within `eps` (in both coordinates) of one edge of the polygons. -/
def NearOne (eps : ℝ) (pss : List (List (Segs.Pt ℝ))) (f : Segs.Pt ℝ × Segs.Pt ℝ) : Prop :=
  ∃ ps ∈ pss, ∃ e ∈ Segs.closedEdges ps, ∀ u : ℝ, 0 ≤ u → u ≤ 1 → ∃ v : ℝ, 0 ≤ v ∧ v ≤ 1 ∧
    |(1 - u) * f.1.x + u * f.2.x - ((1 - v) * e.1.x + v * e.2.x)| ≤ eps ∧ |(1 - u) * f.1.y + u * f.2.y - ((1 - v) * e.1.y + v * e.2.y)| ≤ eps

/-- The winding number of all returned paths around a point. -/
noncomputable def windOut (out : List OutContour) (x z : ℝ) : ℤ := (out.map fun c => windPath c.path x z).sum

/-- What a boolean operation on polygons should return: closed polygons with edges near the edges of the input, nested as a forest (a contour without a
parent is outer; the parent of a contour comes earlier and has the opposite flag), that wind once around the points of the result and not at all around other points. -/
structure RightPaths (eps : ℝ) (as bs : List (List (Segs.Pt ℝ))) (rule : FillRule) (op : Op) (out : List OutContour) : Prop where
  polygon : ∀ c ∈ out, ∃ es, Drawn c.path es ∧ ∀ e ∈ es, NearOne eps (as ++ bs) e
  top : ∀ (i : Nat) (c : OutContour), out[i]? = some c → c.parent = none → c.outer = true
  tree : ∀ (i : Nat) (c : OutContour) (p : Nat), out[i]? = some c → c.parent = some p → p < i ∧ ∃ d : OutContour, out[p]? = some d ∧ c.outer = !d.outer
  winding : ∀ x z, Distant eps (as ++ bs) x z →
    (Combine op (InShape rule (as.map fun ps => windPolyline ps x z).sum) (InShape rule (bs.map fun ps => windPolyline ps x z).sum) → windOut out x z = 1) ∧
    (¬ Combine op (InShape rule (as.map fun ps => windPolyline ps x z).sum) (InShape rule (bs.map fun ps => windPolyline ps x z).sum) → windOut out x z = 0)

/-! ## Points away from the edges -/

/-- Next to the point, an edge is all on the left or all on the right. -/
theorem distant_side {eps x z : ℝ} {p q : Segs.Pt ℝ} (h : ∀ v : ℝ, 0 ≤ v → v ≤ 1 → eps < |x - ((1 - v) * p.x + v * q.x)| ∨ eps < |z - ((1 - v) * p.y + v * q.y)|)
    (he : 0 < eps) :
    (∀ v : ℝ, 0 ≤ v → v ≤ 1 → |z - ((1 - v) * p.y + v * q.y)| ≤ eps → (1 - v) * p.x + v * q.x < x - eps) ∨
    (∀ v : ℝ, 0 ≤ v → v ≤ 1 → |z - ((1 - v) * p.y + v * q.y)| ≤ eps → x + eps < (1 - v) * p.x + v * q.x) := by
  by_contra hcon
  push Not at hcon
  obtain ⟨⟨v, v0, v1, hv, v2⟩, w, w0, w1, hw, w2⟩ := hcon
  have hv' : x + eps < (1 - v) * p.x + v * q.x := by
    rcases h v v0 v1 with h1 | h1
    · rw [lt_abs] at h1
      rcases h1 with h1 | h1 <;> linarith
    · exact absurd hv (not_le.2 h1)
  have hw' : (1 - w) * p.x + w * q.x < x - eps := by
    rcases h w w0 w1 with h1 | h1
    · rw [lt_abs] at h1
      rcases h1 with h1 | h1 <;> linarith
    · exact absurd hw (not_le.2 h1)
  obtain ⟨a, ha⟩ : ∃ a, a = (1 - v) * p.x + v * q.x := ⟨_, rfl⟩
  obtain ⟨b, hb⟩ : ∃ b, b = (1 - w) * p.x + w * q.x := ⟨_, rfl⟩
  rw [← ha] at hv' v2
  rw [← hb] at hw' w2
  have hd : 0 < a - b := by linarith
  obtain ⟨l, hl⟩ : ∃ l, l = (a - x) / (a - b) := ⟨_, rfl⟩
  have l0 : 0 ≤ l := by rw [hl]; exact div_nonneg (by linarith) hd.le
  have l1 : l ≤ 1 := by rw [hl, div_le_one hd]; linarith
  have hx : (1 - l) * a + l * b = x := by
    have : l * (a - b) = a - x := by rw [hl]; field_simp
    linarith
  have := h ((1 - l) * v + l * w) (by nlinarith) (by nlinarith)
  rcases this with h1 | h1
  · have e : x - ((1 - ((1 - l) * v + l * w)) * p.x + ((1 - l) * v + l * w) * q.x) = 0 := by
      rw [← hx, ha, hb]; ring
    rw [e, abs_zero] at h1
    linarith
  · rw [abs_le] at hv hw
    have e : z - ((1 - ((1 - l) * v + l * w)) * p.y + ((1 - l) * v + l * w) * q.y) =
        (1 - l) * (z - ((1 - v) * p.y + v * q.y)) + l * (z - ((1 - w) * p.y + w * q.y)) := by ring
    rw [e] at h1
    refine absurd ?_ (not_le.2 h1)
    rw [abs_le]
    constructor <;> nlinarith [mul_nonneg (sub_nonneg.2 l1) (by linarith [hv.1] : 0 ≤ z - ((1 - v) * p.y + v * q.y) + eps),
      mul_nonneg (sub_nonneg.2 l1) (by linarith [hv.2] : 0 ≤ eps - (z - ((1 - v) * p.y + v * q.y))),
      mul_nonneg l0 (by linarith [hw.1] : 0 ≤ z - ((1 - w) * p.y + w * q.y) + eps),
      mul_nonneg l0 (by linarith [hw.2] : 0 ≤ eps - (z - ((1 - w) * p.y + w * q.y)))]

/-- The point is on one side of the segment: next to the point the segment is all more than `eps` to the left or all more than `eps` to the right. -/
def Side (eps x z : ℝ) (g : Geom.Seg) : Prop :=
  (∀ r, g.On r → |z - r.y| ≤ eps → r.x < x - eps) ∨ (∀ r, g.On r → |z - r.y| ≤ eps → x + eps < r.x)

theorem on_line_iff {p q r : Geom.Pt} : (Geom.Seg.line p q).On r ↔ ∃ v : ℝ, 0 ≤ v ∧ v ≤ 1 ∧ r = ⟨(1 - v) * p.x + v * q.x, (1 - v) * p.y + v * q.y⟩ := by
  constructor
  · rintro ⟨v, v0, v1, rfl⟩
    exact ⟨v, v0, v1, rfl⟩
  · rintro ⟨v, v0, v1, rfl⟩
    exact ⟨v, v0, v1, rfl⟩

theorem distant_segs {as bs : List (List (Segs.Pt ℝ))} {eps x z : ℝ} (he : 0 < eps) (h : Distant eps (as ++ bs) x z) {a : Nat} (ha : a < (buildPolylines as bs).1.len) :
    Side eps x z (segAt (buildPolylines as bs).1 a) := by
  obtain ⟨ps, hps, e, hes, hseg⟩ := segment_edge ha
  rcases hseg with hseg | hseg
  · rw [hseg]
    refine (distant_side (h ps hps e hes) he).imp ?_ ?_ <;>
    · intro H r hr
      rw [on_line_iff] at hr
      obtain ⟨v, v0, v1, rfl⟩ := hr
      exact H v v0 v1
  · rw [hseg]
    refine (distant_side (x := x) (z := z) (p := e.2) (q := e.1) (fun v v0 v1 => ?_) he).imp ?_ ?_
    · have := h ps hps e hes (1 - v) (by linarith) (by linarith)
      rw [sub_sub_cancel, add_comm, add_comm (v * e.1.y)] at this
      exact this
    all_goals
      intro H r hr
      rw [on_line_iff] at hr
      obtain ⟨v, v0, v1, rfl⟩ := hr
      exact H v v0 v1

theorem Side.off {g : Geom.Seg} {eps x z y : ℝ} (h : Side eps x z g) (hg : g.Down) : 
    (∀ y, |y - z| ≤ eps → g.start.y ≤ y → y ≤ g.stop.y → g.atY y < x - eps) ∨ (∀ y, |y - z| ≤ eps → g.start.y ≤ y → y ≤ g.stop.y → x + eps < g.atY y) := by
  refine h.imp ?_ ?_ <;>
  · intro H y hy h0 h1
    exact H ⟨g.atY y, y⟩ ((g.on_iff hg y _ h0 h1).2 rfl) (by rw [abs_sub_comm]; exact hy)

theorem Distant.away {cfg : Cfg} {as bs : List (List (Segs.Pt ℝ))} {x z : ℝ} (he : 0 < cfg.eps) (h : Distant cfg.eps (as ++ bs) x z) :
    Away cfg (buildPolylines as bs).1 x z := by
  intro a ha h0 h1
  have hd : (segAt (buildPolylines as bs).1 a).Down := Slanted.down (buildPolylines_arena as bs) ⟨ha, h0.trans_lt h1⟩
  refine ((distant_segs he h ha).off (y := z) hd).imp ?_ ?_
  · exact fun H y a b c => (H y a b c).le
  · exact fun H y a b c => (H y a b c).le

theorem Distant.off {cfg : Cfg} {as bs : List (List (Segs.Pt ℝ))} {x z : ℝ} (he : 0 < cfg.eps) (h : Distant cfg.eps (as ++ bs) x z) :
    Off cfg.eps (buildPolylines as bs).1 x z := by
  intro a ha
  refine ((distant_segs he h ha.1.1).off (y := z) (Slanted.down (buildPolylines_arena as bs) ha.1)).imp ?_ ?_
  · exact fun H y a b c => (H y a b c).le
  · exact fun H y a b c => (H y a b c).le

/-! ## Drawing -/

theorem drawContours_of {W : Type} [AddCommGroup W] [DecidableEq W] {s : Segments ℝ} {t : Topo.Topo ℝ W} {pos : Nat → Pos.OPath} (f : List Half → List (PathEl ℝ))
    {cs : List Contours.Contour} (h : ∀ C ∈ cs, ∃ r, Path.segsToPath t (source s) pos C.path = some r ∧ f C.path = bezPath r) :
    drawContours s t pos cs = some (cs.map fun C => ⟨f C.path, C.parent, C.outer⟩) := by
  induction cs with
  | nil => rfl
  | cons C cs ih =>
    obtain ⟨r, h1, h2⟩ := h C List.mem_cons_self
    rw [drawContours, h1, ih fun D hD => h D (List.mem_cons_of_mem _ hD), List.map_cons, h2]

theorem sum_flatMap {α : Type} (l : List α) (f : α → List ℤ) : (l.flatMap f).sum = (l.map fun a => (f a).sum).sum := by
  induction l with
  | nil => rfl
  | cons a l ih => rw [List.flatMap_cons, List.sum_append, ih, List.map_cons, List.sum_cons]

theorem segOrigins_lines (es : List (Segs.Pt ℝ × Segs.Pt ℝ)) (x z : ℝ) :
    windSegs (es.map fun e => .line e.1 e.2) x z = (es.map fun e => cross (.line e.1 e.2) x z).sum := by
  unfold windSegs
  induction es with
  | nil => rfl
  | cons e es ih =>
    rw [List.map_cons, List.flatMap_cons, List.map_append, List.sum_append, ih, List.map_cons, List.sum_cons]
    congr 1
    dsimp only [Segs.segOrigins]
    by_cases h : e.1 = e.2
    · rw [if_pos h, h]
      unfold cross
      rw [if_neg, if_neg]
      · rfl
      all_goals
        rintro ⟨h1, h2, -⟩
        exact absurd h1 (not_le.2 h2)
    · rw [if_neg h]
      simp

theorem Drawn.wind {path : List (PathEl ℝ)} {es : List (Segs.Pt ℝ × Segs.Pt ℝ)} (h : Drawn path es) (x z : ℝ) :
    windPath path x z = (es.map fun e => cross (.line e.1 e.2) x z).sum := by
  unfold windPath
  rw [h.segs, Option.getD_some, segOrigins_lines]

/-- Away from the edges a drawn segment is on the same side of the point as the input segment that it comes from. -/
theorem cross_half {W : Type} {t' : Topo.Topo ℝ W} {s : Segments ℝ} {eps x z : ℝ} (hacc : Accurate eps s t') (hd : ∀ i, Slanted s i → (segAt s i).Down)
    (hl : ∀ i < s.len, ∃ p q, segAt s i = .line p q) {i : Nat} {p q : ℝ × ℝ} (hi : i < t'.n) (hr : Topo.Runs t' i p q)
    (hw : (segAt s (t'.origSeg i)).start.y ≤ p.2 ∧ q.2 ≤ (segAt s (t'.origSeg i)).stop.y ∧ p.2 ≤ q.2)
    (hx : ∀ a < s.len, Side eps x z (segAt s a)) (he : 0 < eps) (hz : p.2 ≤ z) (hz' : z < q.2) :
    (segAt s (t'.origSeg i)).atY z < x ↔ (Geom.Seg.line ⟨p.1, p.2⟩ ⟨q.1, q.2⟩).atY z < x := by
  obtain ⟨h1, h2, h3⟩ := hacc i hi p q hr
  obtain ⟨p0, p1, hseg⟩ := hl _ h1
  have hs : Slanted s (t'.origSeg i) := ⟨h1, by linarith [hw.1, hw.2.1]⟩
  have hdn := hd _ hs
  have hon := ((segAt s (t'.origSeg i)).on_iff hdn z _ (hw.1.trans hz) (hz'.le.trans hw.2.1)).2 rfl
  have hchd : (Geom.Seg.line ⟨p.1, p.2⟩ ⟨q.1, q.2⟩).Down := lt_of_le_of_lt hz hz'
  have hch := ((Geom.Seg.line ⟨p.1, p.2⟩ ⟨q.1, q.2⟩).on_iff hchd z _ hz hz'.le).2 rfl
  rw [on_line_iff] at hch
  obtain ⟨u, u0, u1, hu⟩ := hch
  rw [Geom.Pt.mk.injEq] at hu
  obtain ⟨ux, uy⟩ := hu
  dsimp only at ux uy
  rw [ux]
  rw [hseg] at h2 h3
  obtain ⟨v, v0, v1, g1, g2⟩ := chord_near h2 h3 u0 u1
  rw [← uy] at g2
  have hnear : (segAt s (t'.origSeg i)).On ⟨(1 - v) * p0.x + v * p1.x, (1 - v) * p0.y + v * p1.y⟩ := by
    rw [hseg, on_line_iff]; exact ⟨v, v0, v1, rfl⟩
  rw [abs_le] at g1
  rcases hx _ h1 with H | H
  · have k1 := H _ hon (by simpa using he.le)
    have k2 := H _ hnear g2
    dsimp only at k1 k2
    constructor <;> intro <;> linarith
  · have k1 := H _ hon (by simpa using he.le)
    have k2 := H _ hnear g2
    dsimp only at k1 k2
    constructor <;> intro <;> linarith

section
variable {cfg : Cfg} {rule : FillRule} {op : Op} {fuel : Nat} {t' : Topo.Topo ℝ BinaryWinding} {cs : List Contours.Contour} {as bs : List (List (Segs.Pt ℝ))}

open Classical in
/-- What is drawn, for any winding number and any predicate. -/
theorem draw_any {T W : Type} [AddCommGroup W] [DecidableEq W] {single : T → Bool → W} {tags : List T} {inside : W → Bool} {fuel2 fuel3 : Nat}
    {t t' : Topo.Topo ℝ W} (again : Nat → Nat → Bool) (he : 0 < cfg.eps) (hsolve : Geom.FindsRoots cfg.solve) (ha : Arena (buildPolylines as bs).1 tags)
    (hV : (env cfg (buildPolylines as bs).1).Valid (contribution single tags) fuel2)
    (h1 : sweep cfg single (buildPolylines as bs).1 tags fuel2 fuel = some t) (h2 : Merge.mergeCoincident (close cfg.eps (buildPolylines as bs).1) t = some t')
    (h3 : Contours.contours t' inside fuel3 = some cs) (hacc : Accurate cfg.eps (buildPolylines as bs).1 t') :
    ∃ N out, (∀ n, N ≤ n → ∃ pos, layout cfg again (buildPolylines as bs).1 t' n = some pos ∧ drawContours (buildPolylines as bs).1 t' pos cs = some out) ∧
      (∀ c ∈ out, ∃ es, Drawn c.path es ∧ ∀ e ∈ es, NearOne cfg.eps (as ++ bs) e) ∧
      (∀ (i : Nat) (c : OutContour), out[i]? = some c → c.parent = none → c.outer = true) ∧
      (∀ (i : Nat) (c : OutContour) (p : Nat), out[i]? = some c → c.parent = some p → p < i ∧ ∃ d : OutContour, out[p]? = some d ∧ c.outer = !d.outer) ∧
      ∀ x z, Distant cfg.eps (as ++ bs) x z → windOut out x z = windContours (buildPolylines as bs).1 t' cs x z := by
  have hun := unsplit_polylines as bs
  have hnear := nearEdges hacc
  have hlines : ∀ i < (buildPolylines as bs).1.len, ∃ p q, segAt (buildPolylines as bs).1 i = .line p q := by
    intro i hi
    obtain ⟨_, _, e, _, h | h⟩ := segment_edge hi
    · exact ⟨_, _, h⟩
    · exact ⟨_, _, h⟩
  have hside : ∀ x z, Distant cfg.eps (as ++ bs) x z → ∀ a < (buildPolylines as bs).1.len, Side cfg.eps x z (segAt (buildPolylines as bs).1 a) :=
    fun x z hx a ha => distant_segs he hx ha
  generalize (buildPolylines as bs).1 = s at *
  obtain ⟨t1, hm1, e1, e2, e3, e4, -⟩ := Sweep.C61_merge hV h1 (close cfg.eps s)
  obtain rfl : t1 = t' := by rw [h2] at hm1; simpa using hm1.symm
  obtain ⟨H, hr, _⟩ := Sweep.driver_run hV h1
  have hcons := Merge.C26_consistent hV.neg hr (end_adjacent ha he hV h1) h2
  obtain ⟨m, hm, ok⟩ := layout_ok ha he hsolve hV h1 again
  have hm' : Scan.buildScanLineOrders t1 = some m := by rw [Scan.C57_merged hV.neg hr _ h2, hm]
  rw [← layoutInput_merged hV h1 h2 again m] at ok
  have hidx : ∀ C ∈ cs, ∀ x ∈ C.path, x.idx < t1.n := by
    intro C hC x hx
    have hp := Contours.C27_partition t1 _ hcons _ cs h3
    have : x.idx ∈ (cs.flatMap Contours.Contour.path).map Half.idx := List.mem_map_of_mem (List.mem_flatMap.2 ⟨C, hC, hx⟩)
    have := hp.mem_iff.1 this
    rw [List.mem_filter, List.mem_range] at this
    exact this.1
  have hruns : ∀ i < t1.n, ∃ p q, Topo.Runs t1 i p q ∧ (segAt s (t1.origSeg i)).start.y ≤ p.2 ∧ q.2 ≤ (segAt s (t1.origSeg i)).stop.y ∧ p.2 ≤ q.2 := by
    intro i hi
    rw [e1] at hi
    obtain ⟨p, q, hpq⟩ := runs_of_sweep hV h1 hi
    refine ⟨p, q, ?_, ?_⟩
    · unfold Topo.Runs at hpq ⊢
      rw [e2, e3]; exact hpq
    · rw [e4]; exact runs_within hV h1 hi hpq
  have horig : ∀ i < t1.n, t1.origSeg i < s.len := by
    intro i hi
    obtain ⟨p, q, hpq, -⟩ := hruns i hi
    exact (hacc i hi p q hpq).1
  obtain ⟨N, out, k1, k2⟩ := straight_layout ok (fun i hi => by
    obtain ⟨p, q, hpq⟩ := hlines _ (horig i hi)
    change Pos.isLine (segAt s (t1.origSeg i)) = true
    rw [hpq]; rfl)
  have hdraw : ∀ C ∈ cs, ∃ r, Path.segsToPath t1 (source s) out C.path = some r ∧
      Drawn (bezPath r) (C.path.map fun x => (unpt (Path.pt t1 x.other), unpt (Path.pt t1 x))) := by
    intro C hC
    refine contour_path (Contours.C28_closed_simple t1 _ hcons _ cs h3 C hC).1 fun x hx => ⟨k2 x.idx (hidx C hC x hx), hun _ (horig _ (hidx C hC x hx))⟩
  obtain ⟨f, hf⟩ : ∃ f : List Half → List (PathEl ℝ), ∀ C ∈ cs, ∃ r, Path.segsToPath t1 (source s) out C.path = some r ∧ f C.path = bezPath r := by
    refine ⟨fun l => ((Path.segsToPath t1 (source s) out l).map bezPath).getD [], fun C hC => ?_⟩
    obtain ⟨r, hr, -⟩ := hdraw C hC
    exact ⟨r, hr, by dsimp only; rw [hr]; rfl⟩
  have hfd : ∀ C ∈ cs, Drawn (f C.path) (C.path.map fun x => (unpt (Path.pt t1 x.other), unpt (Path.pt t1 x))) := by
    intro C hC
    obtain ⟨r, r1, r2⟩ := hf C hC
    obtain ⟨r', r3, r4⟩ := hdraw C hC
    rw [r1, Option.some.injEq] at r3
    rw [r2, r3]; exact r4
  refine ⟨N, cs.map fun C => ⟨f C.path, C.parent, C.outer⟩, ?_, ?_, ?_, ?_, ?_⟩
  · intro n hn
    have hl : layout cfg again s t1 n = some out := by
      unfold layout
      rw [hm']
      exact k1 n hn
    exact ⟨out, hl, drawContours_of f hf⟩
  · intro c hc
    obtain ⟨C, hC, rfl⟩ := List.mem_map.1 hc
    refine ⟨_, hfd C hC, ?_⟩
    intro e hee
    obtain ⟨⟨i, b⟩, hx, rfl⟩ := List.mem_map.1 hee
    have hi := hidx C hC _ hx
    dsimp only at hi
    obtain ⟨p, q, hpq, -⟩ := hruns i hi
    obtain ⟨ps, hps, e, hes, hu⟩ := hnear i hi p q hpq
    obtain ⟨b1, b2⟩ := pt_of_runs hpq
    refine ⟨ps, hps, e, hes, fun u u0 u1 => ?_⟩
    cases b
    · simp only [Half.other, Bool.not_false, b1, b2, unpt]
      exact hu u u0 u1
    · simp only [Half.other, Bool.not_true, b1, b2, unpt]
      have := hu (1 - u) (by linarith) (by linarith)
      simp only [sub_sub_cancel] at this
      rw [add_comm (u * p.1), add_comm (u * p.2)] at this
      exact this
  · intro i c hc hp
    rw [List.getElem?_map] at hc
    obtain ⟨C, hC, rfl⟩ := Option.map_eq_some_iff.1 hc
    exact (Contours.C29_forest t1 _ hcons _ cs h3 i C hC).1 hp
  · intro i c p hc hp
    rw [List.getElem?_map] at hc
    obtain ⟨C, hC, rfl⟩ := Option.map_eq_some_iff.1 hc
    obtain ⟨g1, P, g2, g3⟩ := (Contours.C29_forest t1 _ hcons _ cs h3 i C hC).2 p hp
    exact ⟨g1, ⟨f P.path, P.parent, P.outer⟩, by rw [List.getElem?_map, g2]; rfl, g3⟩
  · intro x z hx
    unfold windOut windContours Merge.signedCount
    rw [List.map_map, List.map_flatMap, sum_flatMap]
    congr 1
    refine List.map_congr_left fun C hC => ?_
    rw [Function.comp_apply, (hfd C hC).wind, List.map_map]
    congr 1
    refine List.map_congr_left fun y hy => ?_
    obtain ⟨i, b⟩ := y
    have hi := hidx C hC _ hy
    dsimp only at hi
    obtain ⟨p, q, hpq, hw⟩ := hruns i hi
    obtain ⟨b1, b2⟩ := pt_of_runs hpq
    have key : LeftAt s t1 x z i ↔ p.2 ≤ z ∧ z < q.2 ∧ (Geom.Seg.line ⟨p.1, p.2⟩ ⟨q.1, q.2⟩).atY z < x := by
      have ch := fun hz hz' => cross_half hacc (fun i hi => Slanted.down ha hi) hlines hi hpq hw (hside x z hx) he hz hz'
      constructor
      · rintro ⟨⟨-, p', q', hpq', l1, l2⟩, l3⟩
        obtain ⟨a, b, k1, k2, k3, k4⟩ := hpq
        obtain ⟨rfl, rfl⟩ := Merge.runs_iff k1 k2 k3 k4 hpq'
        exact ⟨l1, l2, (ch l1 l2).1 l3⟩
      · rintro ⟨l1, l2, l3⟩
        exact ⟨⟨hi, p, q, hpq, l1, l2⟩, (ch l1 l2).2 l3⟩
    cases b
    · simp only [Function.comp_apply, Half.other, Bool.not_false, b1, b2]
      rw [cross_fwd (by exact hw.2.2)]
      refine if_congr ?_ rfl rfl
      rw [key]; rfl
    · simp only [Function.comp_apply, Half.other, Bool.not_true, b1, b2]
      have := cross_rev (g := .line (unpt ⟨p.1, p.2⟩) (unpt ⟨q.1, q.2⟩)) (by exact hw.2.2) x z
      refine Eq.trans this ?_
      refine if_congr ?_ rfl rfl
      rw [key]; rfl

open Classical in
theorem draw_right (again : Nat → Nat → Bool) (he : 0 < cfg.eps) (hsolve : Geom.FindsRoots cfg.solve)
    (hV : (env cfg (buildPolylines as bs).1).Valid (contribution BinaryWinding.single (buildPolylines as bs).2) fuel)
    (h : finish cfg rule op (buildPolylines as bs).1 (buildPolylines as bs).2 fuel = .ok (buildPolylines as bs).1 t' cs)
    (hacc : Accurate cfg.eps (buildPolylines as bs).1 t') :
    ∃ N out, (∀ n, N ≤ n → (Outcome.ok (buildPolylines as bs).1 t' cs).draw cfg again n = .ok out) ∧
      (∀ c ∈ out, ∃ es, Drawn c.path es ∧ ∀ e ∈ es, NearOne cfg.eps (as ++ bs) e) ∧
      (∀ (i : Nat) (c : OutContour), out[i]? = some c → c.parent = none → c.outer = true) ∧
      (∀ (i : Nat) (c : OutContour) (p : Nat), out[i]? = some c → c.parent = some p → p < i ∧ ∃ d : OutContour, out[p]? = some d ∧ c.outer = !d.outer) ∧
      ∀ x z, Distant cfg.eps (as ++ bs) x z → windOut out x z = windContours (buildPolylines as bs).1 t' cs x z := by
  obtain ⟨-, t, h1, h2, h3⟩ := finish_ok h
  obtain ⟨N, out, d1, d2⟩ := draw_any again he hsolve (buildPolylines_arena as bs) hV h1 h2 h3 hacc
  refine ⟨N, out, fun n hn => ?_, d2⟩
  obtain ⟨pos, p1, p2⟩ := d1 n hn
  simp only [Outcome.draw, p1, p2]

/-- The result of a boolean operation does not change if it is drawn. -/
theorem draw_fuel {o : Nat → Outcome} {again : Nat → Nat → Bool} {s : Segments ℝ} {out : List OutContour} {N M : Nat} (h1 : ∀ n, N ≤ n → o n = .ok s t' cs)
    (h2 : ∀ n, M ≤ n → (Outcome.ok s t' cs).draw cfg again n = .ok out) : ∀ n, max N M ≤ n → (o n).draw cfg again n = .ok out := by
  intro n hn
  rw [h1 n ((le_max_left _ _).trans hn)]
  exact h2 n ((le_max_right _ _).trans hn)

/-- C85 for polygons whose edges do not cross and are clearly apart where they differ: the operation returns, and the returned paths are right. -/
theorem C85_polygons (again : Nat → Nat → Bool) (he : 0 < cfg.eps) (hpp : Searches cfg.pp) (hsolve : Geom.FindsRoots cfg.solve)
    (hP : Polygons cfg.eps (as ++ bs)) (hB : BeyondCorners cfg (as ++ bs)) (rule : FillRule) (op : Op) :
    ∃ N out, (∀ fuel, N ≤ fuel → polylineOpPaths cfg again as bs rule op fuel = .ok out) ∧ RightPaths cfg.eps as bs rule op out := by
  have ha := buildPolylines_arena as bs
  have hR := resolved_of_apart he hsolve hP.nocross' hP.apart
  obtain ⟨N, t', cs, h⟩ := finish_returns ha he hpp hsolve hP.nocross' hR rule op
  have hV := env_valid ha he hpp _ BinaryWinding.single_neg (planar_order ha he hpp hsolve hP.nocross' hR N)
  have hacc := finish_accurate ha he hV (env_tidy_planar ha he hpp hsolve hP.nocross' hR (beyond_corners hB) N) (h N le_rfl)
  obtain ⟨M, out, d1, d2, d3, d4, d5⟩ := draw_right again he hsolve hV (h N le_rfl) hacc
  refine ⟨max N M, out, draw_fuel (o := polylineOp cfg as bs rule op) h d1, d2, d3, d4, fun x z hx => ?_⟩
  rw [d5 x z hx]
  exact C78_polygons he hpp hsolve hP (h N le_rfl) (hx.away he)

/-- C85 for polygons whose edges may cross, in general position: the operation returns, and the returned paths are right. -/
theorem C85_crossing (again : Nat → Nat → Bool) (he : 0 < cfg.eps) (hpp : Searches cfg.pp) (hsolve : Geom.FindsRoots cfg.solve) (hf : OneFirst cfg.first)
    (hP : LoosePolygons cfg.eps (as ++ bs)) (hB : BeyondCorners cfg (as ++ bs)) (rule : FillRule) (op : Op) :
    ∃ N out, (∀ fuel, N ≤ fuel → polylineOpPaths cfg again as bs rule op fuel = .ok out) ∧ RightPaths cfg.eps as bs rule op out := by
  have ha := buildPolylines_arena as bs
  have hL := hP.loose
  have hG := general_of_loose ha he hsolve hf hL
  obtain ⟨N, t', cs, h, hw⟩ := C81_polylines he hpp hsolve hf hG rule op
  have hV := env_valid ha he hpp _ BinaryWinding.single_neg (general_order ha he hpp hsolve hf hG N)
  have hacc := finish_accurate ha he hV (env_tidy_general ha he hpp hsolve hf hG
    (fun i j t hne _ hb => (blurred_meet ha he hsolve hf hL.line hL.moderate hL.upright hne hb).touching he) (beyond_corners hB) N) (h N le_rfl)
  obtain ⟨M, out, d1, d2, d3, d4, d5⟩ := draw_right again he hsolve hV (h N le_rfl) hacc
  refine ⟨max N M, out, draw_fuel (o := polylineOp cfg as bs rule op) h d1, d2, d3, d4, fun x z hx => ?_⟩
  rw [d5 x z hx]
  have ho : Off cfg.eps (buildPolylines as bs).1 x z := hx.off he
  exact hw x z (ho.away he) (ho.beside ha he hsolve hf hL)

/-- Polygons that are drawn as paths give the same paths. -/
theorem C85_outlines (again : Nat → Nat → Bool) (ha : Proper as) (hb : Proper bs) (rule : FillRule) (op : Op) (fuel : Nat) :
    binaryOpPaths cfg again (outlines as) (outlines bs) rule op fuel = polylineOpPaths cfg again as bs rule op fuel := by
  unfold binaryOpPaths polylineOpPaths
  rw [C83_outlines cfg ha hb]

/-! ## The result as input -/

/-- All returned contours in one path, as a caller would put them together to use them as input again. -/
def joined (out : List OutContour) : List (PathEl ℝ) := out.flatMap OutContour.path

theorem Drawn.outline {path : List (PathEl ℝ)} {es : List (Segs.Pt ℝ × Segs.Pt ℝ)} (h : Drawn path es) : ∃ p ps, path = Full.outline (p :: ps) ∧ ps.getLast? = some p := by
  obtain ⟨p, ps, h1, h2, -⟩ := h
  exact ⟨p, ps, h1, h2⟩

theorem drawn_outlines {out : List OutContour} (h : ∀ c ∈ out, ∃ es, Drawn c.path es) :
    ∃ pss : List (List (Segs.Pt ℝ)), out.map OutContour.path = pss.map outline ∧ ∀ ps ∈ pss, ps ≠ [] := by
  induction out with
  | nil => exact ⟨[], rfl, by simp⟩
  | cons c out ih =>
    obtain ⟨pss, h1, h2⟩ := ih fun d hd => h d (List.mem_cons_of_mem _ hd)
    obtain ⟨es, he⟩ := h c List.mem_cons_self
    obtain ⟨p, ps, h3, -⟩ := he.outline
    refine ⟨(p :: ps) :: pss, by rw [List.map_cons, List.map_cons, h1, h3], fun q hq => ?_⟩
    rcases List.mem_cons.1 hq with rfl | hq
    · simp
    · exact h2 q hq

theorem joined_subpaths {out : List OutContour} (h : ∀ c ∈ out, ∃ es, Drawn c.path es) : Segs.subpaths (joined out) = out.map OutContour.path := by
  obtain ⟨pss, h1, h2⟩ := drawn_outlines h
  have e : joined out = outlines pss := by
    unfold joined outlines
    rw [List.flatMap_def, h1, ← List.flatMap_def]
  rw [e, subpaths_outlines, h1, List.filter_eq_self.2]
  simpa using h2

theorem outline_closed (p : Segs.Pt ℝ) (ps : List (Segs.Pt ℝ)) : verdict (outline (p :: ps)) = .closed := by
  simp [outline, verdict, target, pen]

/-- The winding number of the contours, as one path. -/
theorem joined_wind {out : List OutContour} (h : ∀ c ∈ out, ∃ es, Drawn c.path es) (x z : ℝ) : windPath (joined out) x z = windOut out x z := by
  have key : ∀ l : List OutContour, (∀ c ∈ l, ∃ es, Drawn c.path es) →
      windSegs (((Segs.allSome (Segs.kurboSegments none) (l.map OutContour.path)).map List.flatten).getD []) x z = windOut l x z ∧
      ∃ gss, Segs.allSome (Segs.kurboSegments none) (l.map OutContour.path) = some gss := by
    intro l hl
    induction l with
    | nil => exact ⟨rfl, [], rfl⟩
    | cons c l ih =>
      obtain ⟨i1, gss, i2⟩ := ih fun d hd => hl d (List.mem_cons_of_mem _ hd)
      obtain ⟨es, he⟩ := hl c List.mem_cons_self
      have hk : Segs.kurboSegments none c.path = some (es.map fun e => .line e.1 e.2) := by
        have h1 := he.segs
        obtain ⟨p, ps, h2, h3⟩ := he.outline
        have h4 := joined_subpaths (out := [c]) (fun d hd => hl d (by simp at hd; simp [hd]))
        have h5 : joined [c] = c.path := by simp [joined]
        rw [h5] at h4
        unfold pathSegs at h1
        rw [h4] at h1
        simp only [List.map_cons, List.map_nil, Segs.allSome] at h1
        cases hc : Segs.kurboSegments none c.path with
        | none => rw [hc] at h1; simp at h1
        | some g => rw [hc] at h1; simpa using h1
      rw [i2] at i1
      refine ⟨?_, (es.map fun e => .line e.1 e.2) :: gss, by simp [Segs.allSome, hk, i2]⟩
      simp only [List.map_cons, Segs.allSome, hk, i2, Option.map_some, Option.getD_some, List.flatten_cons] at i1 ⊢
      unfold windOut at i1 ⊢
      rw [List.map_cons, List.sum_cons, ← i1, he.wind, ← segOrigins_lines]
      unfold windSegs
      rw [List.flatMap_append, List.map_append, List.sum_append]
  unfold windPath pathSegs
  rw [joined_subpaths h]
  exact (key out h).1

/-- C85: what a boolean operation has returned is accepted as input, and as input it stands for the same set. -/
theorem C85_again {rule' : FillRule} {op' : Op} {as' bs' : List (List (Segs.Pt ℝ))} {eps eps' : ℝ} {out out' : List OutContour}
    (h : RightPaths eps as bs rule op out) (h' : RightPaths eps' as' bs' rule' op' out') :
    (∃ s tags, buildPaths (tagged (joined out) (joined out')) = .ok s tags) ∧ ∀ x z, windPath (joined out) x z = windOut out x z := by
  have hd : ∀ {eps : ℝ} {as bs rule op out}, RightPaths eps as bs rule op out → ∀ c ∈ out, ∃ es, Drawn c.path es := by
    intro eps as bs rule op out h c hc
    obtain ⟨es, h1, -⟩ := h.polygon c hc
    exact ⟨es, h1⟩
  refine ⟨C82_closed ?_, joined_wind (hd h)⟩
  have hcl : ∀ {out : List OutContour}, (∀ c ∈ out, ∃ es, Drawn c.path es) → ∀ sub ∈ Segs.subpaths (joined out), verdict sub = .closed := by
    intro out h sub hs
    rw [joined_subpaths h] at hs
    obtain ⟨c, hc, rfl⟩ := List.mem_map.1 hs
    obtain ⟨es, he⟩ := h c hc
    obtain ⟨p, ps, h1, -⟩ := he.outline
    rw [h1]; exact outline_closed p ps
  intro p hp
  simp only [tagged, List.mem_cons, List.not_mem_nil, or_false] at hp
  rcases hp with rfl | rfl
  · exact hcl (hd h)
  · exact hcl (hd h')

end

/-! ## Non-vacuity -/

namespace Ex

theorem beyond : BeyondCorners cfg' ([triangle] ++ [square]) := by
  intro ps hps e he
  simp only [List.cons_append, List.nil_append, List.mem_cons, List.not_mem_nil, or_false] at hps
  rcases hps with rfl | rfl
  all_goals
    simp [Segs.closedEdges, triangle, square, List.mem_cons] at he
    rcases he with rfl | rfl | rfl | rfl <;> norm_num [cfg']

/-- The triangle without the square. -/
theorem triangle_paths : ∃ N out, (∀ fuel, N ≤ fuel → polylineOpPaths cfg' (fun _ _ => true) [triangle] [square] .nonZero .difference fuel = .ok out) ∧
    RightPaths (1 / 10) [triangle] [square] .nonZero .difference out :=
  C85_polygons (cfg := cfg') (as := [triangle]) (bs := [square]) (fun _ _ => true) (by norm_num [cfg', Ex.cfg]) searches (Classical.choose_spec Geom.findsRoots_exists) polygons beyond .nonZero .difference

end Ex

namespace Cross

theorem beyond : BeyondCorners cfg' ([up] ++ [upsideDown]) := by
  intro ps hps e he
  simp only [List.cons_append, List.nil_append, List.mem_cons, List.not_mem_nil, or_false] at hps
  rcases hps with rfl | rfl
  all_goals
    simp [Segs.closedEdges, up, upsideDown, List.mem_cons] at he
    rcases he with rfl | rfl | rfl <;> norm_num [cfg']

/-- The exclusive or of two triangles that cross, drawn as paths. -/
theorem xor_paths : ∃ N out, (∀ fuel, N ≤ fuel → binaryOpPaths cfg' (fun _ _ => true) (outlines [up]) (outlines [upsideDown]) .nonZero .xor fuel = .ok out) ∧
    RightPaths (1 / 100) [up] [upsideDown] .nonZero .xor out := by
  obtain ⟨N, out, h1, h2⟩ := C85_crossing (cfg := cfg') (as := [up]) (bs := [upsideDown]) (fun _ _ => true) (by norm_num [cfg', Cross.cfg]) Ex.searches
    (Classical.choose_spec Geom.findsRoots_exists) oneFirst loose beyond .nonZero .xor
  exact ⟨N, out, fun fuel hf => by rw [C85_outlines _ proper_up proper_down]; exact h1 fuel hf, h2⟩

theorem distant {x z : ℝ} (h : ∀ ps ∈ [up, upsideDown], ∀ e ∈ Segs.closedEdges ps, ∀ v : ℝ, 0 ≤ v → v ≤ 1 →
    ¬ (|x - ((1 - v) * e.1.x + v * e.2.x)| ≤ 1 / 100 ∧ |z - ((1 - v) * e.1.y + v * e.2.y)| ≤ 1 / 100)) : Distant (1 / 100) [up, upsideDown] x z := by
  intro ps hps e he v v0 v1
  by_contra hcon
  push Not at hcon
  exact h ps hps e he v v0 v1 hcon

/-- The paths of the exclusive or wind once around a point of one of the triangles and not around points of both or none. -/
theorem xor_winds : ∃ N out, (∀ fuel, N ≤ fuel → binaryOpPaths cfg' (fun _ _ => true) (outlines [up]) (outlines [upsideDown]) .nonZero .xor fuel = .ok out) ∧
    windOut out (-7) 5 = 1 ∧ windOut out (-7) 9 = 1 ∧ windOut out 0 7 = 0 ∧ windOut out (-8) 7 = 0 := by
  obtain ⟨N, out, h1, h2⟩ := xor_paths
  have dist : ∀ {x z : ℝ}, (x = -7 ∧ z = 5) ∨ (x = -7 ∧ z = 9) ∨ (x = 0 ∧ z = 7) ∨ (x = -8 ∧ z = 7) → Distant (1 / 100) ([up] ++ [upsideDown]) x z := by
    intro x z hxz
    refine distant fun ps hps e he v v0 v1 => ?_
    simp only [List.mem_cons, List.not_mem_nil, or_false] at hps
    rintro ⟨a1, a2⟩
    rw [abs_le] at a1 a2
    rcases hps with rfl | rfl
    all_goals
      simp [Segs.closedEdges, up, upsideDown, List.mem_cons] at he
      rcases he with rfl | rfl | rfl <;> dsimp only at a1 a2 <;> rcases hxz with ⟨rfl, rfl⟩ | ⟨rfl, rfl⟩ | ⟨rfl, rfl⟩ | ⟨rfl, rfl⟩ <;> linarith [a1.1, a1.2, a2.1, a2.2]
  refine ⟨N, out, h1, ?_, ?_, ?_, ?_⟩
  · refine (h2.winding (-7) 5 (dist (by simp))).1 ?_
    simp only [List.map_cons, List.map_nil, up_wind, down_wind]
    norm_num [Combine, InShape]
  · refine (h2.winding (-7) 9 (dist (by simp))).1 ?_
    simp only [List.map_cons, List.map_nil, up_wind, down_wind]
    norm_num [Combine, InShape]
  · refine (h2.winding 0 7 (dist (by simp))).2 ?_
    simp only [List.map_cons, List.map_nil, up_wind, down_wind]
    norm_num [Combine, InShape]
  · refine (h2.winding (-8) 7 (dist (by simp))).2 ?_
    simp only [List.map_cons, List.map_nil, up_wind, down_wind]
    norm_num [Combine, InShape]

end Cross

end Verif.Full
