import Verif.Full.Translate

/-!
# C103: the region of the mirrored input is the mirrored region

The sweep treats left and right differently (positions, `force_left`, the order of insertion); the region of the result does not depend on it.
-/

namespace Verif.Full
open Verif.Segs (Segments PathEl)
open Verif.Curve Verif.BinOp

/-- The point on the other side of the vertical axis. -/
def flipPt (p : Segs.Pt ℝ) : Segs.Pt ℝ := ⟨-p.x, p.y⟩

/-- The mirrored polygons. -/
def mirror (pss : List (List (Segs.Pt ℝ))) : List (List (Segs.Pt ℝ)) := pss.map fun ps => ps.map flipPt

/-! ## Segments -/

/-- `g'` is the mirror image of the straight line `g`. -/
structure Flipped (g g' : Geom.Seg) : Prop where
  line : Line g
  line' : Line g'
  start : g'.start = ⟨-g.start.x, g.start.y⟩
  stop : g'.stop = ⟨-g.stop.x, g.stop.y⟩

section
variable {a a' b b' : Geom.Seg}

theorem Flipped.slope (h : Flipped a a') : slope a' = - slope a := by
  simp only [Full.slope, h.start, h.stop]
  rw [← neg_div]
  congr 1
  ring

theorem Flipped.atY (h : Flipped a a') (y : ℝ) : a'.atY y = - a.atY y := by
  rw [h.line.atY_eq, h.line'.atY_eq, h.slope, h.start]
  ring

theorem LeftOf.flipped (ha : Flipped a a') (hb : Flipped b b') (h : LeftOf a' b') : LeftOf b a := by
  obtain ⟨t, h1, h2, h3⟩ := h
  rw [ha.start, ha.stop] at h1
  rw [hb.start, hb.stop] at h2
  rw [ha.atY, hb.atY] at h3
  exact ⟨t, h2, h1, by linarith⟩

theorem Separated.flipped {eps : ℝ} (ha : Flipped a a') (hb : Flipped b b') (h : Separated eps a b) : Separated eps b' a' := by
  unfold Separated at h ⊢
  rw [ha.start, hb.start, ha.stop, hb.stop, max_comm b.start.y, min_comm b.stop.y]
  rcases h with ⟨y, h1, h2, h3⟩ | ⟨h1, h2⟩
  · left
    refine ⟨y, h1, h2, fun y0 y1 k1 k2 k3 k4 k5 k6 => ?_⟩
    rw [hb.start] at k1
    rw [hb.stop] at k2
    rw [ha.start] at k3
    rw [ha.stop] at k4
    have := h3 y1 y0 k3 k4 k1 k2 k6 k5
    rw [ha.atY, hb.atY]
    linarith
  · right
    refine ⟨h1, ?_⟩
    rw [ha.atY, hb.atY]
    linarith

theorem Quiet.flipped {eps : ℝ} (ha : Flipped a a') (hb : Flipped b b') (h : Quiet eps a b) : Quiet eps a' b' :=
  ⟨fun k => ⟨fun k' => (h.2 (k.flipped ha hb)).1 (k'.flipped hb ha), (h.2 (k.flipped ha hb)).2.flipped hb ha⟩,
    fun k => ⟨fun k' => (h.1 (k.flipped hb ha)).1 (k'.flipped ha hb), (h.1 (k.flipped hb ha)).2.flipped ha hb⟩⟩

theorem Meet.flipped {eps t : ℝ} (ha : Flipped a a') (hb : Flipped b b') (h : Meet eps t a' b') : Meet eps t a b := by
  obtain ⟨y0, y1, h1, h2, h3, h4, h5⟩ := h
  rw [ha.start, ha.stop] at h1
  rw [hb.start, hb.stop] at h2
  rw [ha.atY, hb.atY, show -b.atY y1 - -a.atY y0 = -(b.atY y1 - a.atY y0) by ring, abs_neg] at h5
  exact ⟨y0, y1, h1, h2, h3, h4, h5⟩

theorem Share.flipped {t : ℝ} (ha : Flipped a a') (hb : Flipped b b') (h : Share t a b) : Share t a' b' := by
  unfold Share at h ⊢
  rw [ha.start, ha.stop, hb.start, hb.stop]
  rcases h with ⟨h1, h2⟩ | ⟨h1, h2⟩
  · refine .inl ⟨h1, ?_⟩
    rcases h2 with h2 | h2 <;> simp [h2]
  · refine .inr ⟨h1, ?_⟩
    rcases h2 with h2 | h2 <;> simp [h2]

theorem Upright.flipped (ha : Flipped a a') (hb : Flipped b b') (h : Upright a b) : Upright a' b' := by
  unfold Upright at h ⊢
  rw [ha.slope, hb.slope, abs_neg, abs_neg]
  by_cases h1 : |Full.slope a| < 16
  · exact .inl h1
  by_cases h2 : |Full.slope b| < 16
  · exact .inr (.inl h2)
  right; right
  have n1 : Full.slope a ≠ 0 := fun e => h1 (by rw [e]; norm_num)
  have n2 : Full.slope b ≠ 0 := fun e => h2 (by rw [e]; norm_num)
  rcases h with h | h | h
  · exact absurd h h1
  · exact absurd h h2
  · intro k
    apply h
    rw [neg_pos, neg_pos] at k
    rcases lt_or_gt_of_ne n1 with m1 | m1 <;> rcases lt_or_gt_of_ne n2 with m2 | m2
    · exact ⟨fun x => by linarith, fun x => by linarith⟩
    · exact absurd (k.1 m1) (by linarith)
    · exact absurd (k.2 m2) (by linarith)
    · exact ⟨fun _ => m2, fun _ => m1⟩

theorem Moderate.flipped {eps : ℝ} (ha : Flipped a a') (h : Moderate eps a) : Moderate eps a' := by
  unfold Moderate at h ⊢
  rw [ha.start, ha.stop, ha.slope, abs_neg, abs_neg, abs_neg]
  exact h

end

/-! ## Polygons -/

theorem closedEdges_mirror (ps : List (Segs.Pt ℝ)) : Segs.closedEdges (ps.map flipPt) = (Segs.closedEdges ps).map fun e => (flipPt e.1, flipPt e.2) := by
  unfold Segs.closedEdges
  rw [List.length_map]
  split_ifs
  · rfl
  · rw [← List.map_tail, ← List.map_take, ← List.map_append, List.zip_map]
    rfl

theorem edges_mirror (pss : List (List (Segs.Pt ℝ))) : edges (mirror pss) = (edges pss).map fun e => (flipPt e.1, flipPt e.2) := by
  unfold edges mirror
  rw [List.flatMap_map, List.map_flatMap]
  simp only [closedEdges_mirror]

theorem edgeAt_mirror {t : ℝ} {pss : List (List (Segs.Pt ℝ))} {i : Nat} {g' : Geom.Seg} (h : EdgeAt (mirror pss) t i g') : ∃ g, EdgeAt pss t i g ∧ Flipped g g' := by
  obtain ⟨e', h1, h2, rfl, h3, h4⟩ := h
  rw [edges_mirror, List.getElem?_map] at h1
  obtain ⟨⟨p, q⟩, h0, rfl⟩ := Option.map_eq_some_iff.1 h1
  simp only [flipPt] at h2
  have hm : Flipped (down (p, q)) (down (flipPt p, flipPt q)) := by
    by_cases hl : p.y < q.y
    · have d1 : down (p, q) = .line (pt p) (pt q) := if_pos hl
      have d2 : down (flipPt p, flipPt q) = .line (pt (flipPt p)) (pt (flipPt q)) := if_pos hl
      rw [d1, d2]
      exact ⟨⟨_, _, rfl, hl⟩, ⟨_, _, rfl, hl⟩, rfl, rfl⟩
    · have hl' : q.y < p.y := lt_of_le_of_ne (not_lt.1 hl) (Ne.symm h2)
      have d1 : down (p, q) = .line (pt q) (pt p) := if_neg hl
      have d2 : down (flipPt p, flipPt q) = .line (pt (flipPt q)) (pt (flipPt p)) := if_neg hl
      rw [d1, d2]
      exact ⟨⟨_, _, rfl, hl'⟩, ⟨_, _, rfl, hl'⟩, rfl, rfl⟩
  rw [hm.start] at h3
  rw [hm.stop] at h4
  exact ⟨_, ⟨(p, q), h0, h2, rfl, h3, h4⟩, hm⟩

theorem edge_mirror {pss : List (List (Segs.Pt ℝ))} {g' : Geom.Seg} (h : Edge (mirror pss) g') : ∃ g, Edge pss g ∧ Flipped g g' := by
  obtain ⟨ps', h1, e', h2, h3, h4⟩ := h
  obtain ⟨ps, k1, rfl⟩ := List.mem_map.1 h1
  rw [closedEdges_mirror] at h2
  obtain ⟨⟨p, q⟩, k2, rfl⟩ := List.mem_map.1 h2
  rcases h3 with rfl | rfl
  · exact ⟨.line (pt p) (pt q), ⟨ps, k1, _, k2, .inl rfl, h4⟩, ⟨_, _, rfl, h4⟩, ⟨_, _, rfl, h4⟩, rfl, rfl⟩
  · exact ⟨.line (pt q) (pt p), ⟨ps, k1, _, k2, .inr rfl, h4⟩, ⟨_, _, rfl, h4⟩, ⟨_, _, rfl, h4⟩, rfl, rfl⟩

/-- General position does not change if the polygons are mirrored. -/
theorem LoosePolygons.mirror {eps : ℝ} {pss : List (List (Segs.Pt ℝ))} (h : LoosePolygons eps pss) : LoosePolygons eps (mirror pss) := by
  refine ⟨?_, ?_, ?_, ?_⟩
  · intro a' ha'
    obtain ⟨a, ha, ma⟩ := edge_mirror ha'
    exact (h.moderate a ha).flipped ma
  · intro a' b' ha' hb'
    obtain ⟨a, ha, ma⟩ := edge_mirror ha'
    obtain ⟨b, hb, mb⟩ := edge_mirror hb'
    exact (h.upright a b ha hb).flipped ma mb
  · intro i j k a' b' c' t n ha' hb' hc' hq hch hmeet
    have hch' : EdgeChain eps pss t i j := by
      unfold EdgeChain at hch ⊢
      clear hq n hb'
      induction hch with
      | refl => exact .refl
      | tail _ h2 ih =>
        obtain ⟨p', q', h1, h2, h3⟩ := h2
        obtain ⟨p, hp, mp⟩ := edgeAt_mirror h1
        obtain ⟨q, hq, mq⟩ := edgeAt_mirror h2
        exact ih.tail ⟨p, q, hp, hq, h3.flipped mp mq⟩
    obtain ⟨a, ha, ma⟩ := edgeAt_mirror ha'
    obtain ⟨b, hb, mb⟩ := edgeAt_mirror hb'
    obtain ⟨c, hc, mc⟩ := edgeAt_mirror hc'
    exact h.alone i j k a b c t n ha hb hc (fun k => hq (k.flipped ma mb)) hch' (hmeet.flipped ma mc)
  · rintro i j a' b' t n hq ⟨ps', h1, p', h2, h3⟩ ha' hb' hmeet
    obtain ⟨ps, k1, rfl⟩ := List.mem_map.1 h1
    obtain ⟨p, k2, rfl⟩ := List.mem_map.1 h2
    obtain ⟨a, ha, ma⟩ := edgeAt_mirror ha'
    obtain ⟨b, hb, mb⟩ := edgeAt_mirror hb'
    exact (h.ends i j a b t n (fun k => hq (k.flipped ma mb)) ⟨ps, k1, p, k2, h3⟩ ha hb (hmeet.flipped ma mb)).flipped ma mb

theorem Distant.mirror {eps x z : ℝ} {pss : List (List (Segs.Pt ℝ))} (h : Distant eps pss x z) : Distant eps (mirror pss) (-x) z := by
  intro ps' h1 e' h2 u u0 u1
  obtain ⟨ps, k1, rfl⟩ := List.mem_map.1 h1
  rw [closedEdges_mirror] at h2
  obtain ⟨e, k2, rfl⟩ := List.mem_map.1 h2
  have := h ps k1 e k2 u u0 u1
  simp only [flipPt]
  rw [show -x - ((1 - u) * -e.1.x + u * -e.2.x) = -(x - ((1 - u) * e.1.x + u * e.2.x)) by ring, abs_neg]
  exact this

/-! ## Winding numbers -/

open Classical in
/-- Whether the point is below the height `z`. -/
noncomputable def under (z : ℝ) (p : Segs.Pt ℝ) : ℤ := if z < p.y then 1 else 0

/-- A closed polyline crosses a horizontal line equally often downwards and upwards. -/
theorem under_sum (z : ℝ) (ps : List (Segs.Pt ℝ)) : ((Segs.closedEdges ps).map fun e => under z e.2 - under z e.1).sum = 0 := by
  by_cases h : 2 ≤ ps.length
  · have e1 : ((Segs.closedEdges ps).map Prod.fst) = ps := by
      rw [closedEdges_zip h, List.map_fst_zip (by simp)]
    have e2 : ((Segs.closedEdges ps).map Prod.snd) = ps.rotate 1 := by
      rw [closedEdges_zip h, List.map_snd_zip (by simp)]
    have k : ∀ es : List (Segs.Pt ℝ × Segs.Pt ℝ), (es.map fun e => under z e.2 - under z e.1).sum = ((es.map Prod.snd).map (under z)).sum - ((es.map Prod.fst).map (under z)).sum := by
      intro es
      induction es with
      | nil => simp
      | cons e es ih => simp only [List.map_cons, List.sum_cons, ih]; ring
    rw [k, e1, e2, (((List.rotate_perm ps 1).map (under z)).sum_eq), sub_self]
  · rw [closedEdges_short h]; rfl

/-- An edge that avoids the point crosses either the ray to the left or the ray to the right. -/
theorem cross_mirror {eps x z : ℝ} (he : 0 < eps) {p q : Segs.Pt ℝ}
    (h : ∀ v : ℝ, 0 ≤ v → v ≤ 1 → eps < |x - ((1 - v) * p.x + v * q.x)| ∨ eps < |z - ((1 - v) * p.y + v * q.y)|) :
    cross (.line (flipPt p) (flipPt q)) (-x) z = under z q - under z p - cross (.line p q) x z := by
  have key : ∀ {p q : Segs.Pt ℝ}, (∀ v : ℝ, 0 ≤ v → v ≤ 1 → eps < |x - ((1 - v) * p.x + v * q.x)| ∨ eps < |z - ((1 - v) * p.y + v * q.y)|) →
      p.y ≤ z → z < q.y → p.x + (z - p.y) / (q.y - p.y) * (q.x - p.x) ≠ x := by
    intro p q h h1 h2 e
    have hd : 0 < q.y - p.y := by linarith
    rcases h ((z - p.y) / (q.y - p.y)) (div_nonneg (by linarith) hd.le) ((div_le_one hd).2 (by linarith)) with k | k
    · rw [show x - ((1 - (z - p.y) / (q.y - p.y)) * p.x + (z - p.y) / (q.y - p.y) * q.x) = x - (p.x + (z - p.y) / (q.y - p.y) * (q.x - p.x)) by ring, e, sub_self, abs_zero] at k
      linarith
    · have : (z - p.y) / (q.y - p.y) * (q.y - p.y) = z - p.y := div_mul_cancel₀ _ hd.ne'
      rw [show z - ((1 - (z - p.y) / (q.y - p.y)) * p.y + (z - p.y) / (q.y - p.y) * q.y) = z - p.y - (z - p.y) / (q.y - p.y) * (q.y - p.y) by ring, this, sub_self, abs_zero] at k
      linarith
  have h' : ∀ v : ℝ, 0 ≤ v → v ≤ 1 → eps < |x - ((1 - v) * q.x + v * p.x)| ∨ eps < |z - ((1 - v) * q.y + v * p.y)| := by
    intro v v0 v1
    have := h (1 - v) (by linarith) (by linarith)
    rw [sub_sub_cancel, add_comm (v * p.x), add_comm (v * p.y)] at this
    exact this
  have f : ∀ {p q : Segs.Pt ℝ}, -p.x + (z - p.y) / (q.y - p.y) * (-q.x - -p.x) < -x ↔ x < p.x + (z - p.y) / (q.y - p.y) * (q.x - p.x) := by
    intro p q
    rw [show -p.x + (z - p.y) / (q.y - p.y) * (-q.x - -p.x) = -(p.x + (z - p.y) / (q.y - p.y) * (q.x - p.x)) by ring, neg_lt_neg_iff]
  rw [Ex.cross_line, Ex.cross_line]
  simp only [flipPt, f, under]
  by_cases a : p.y ≤ z <;> by_cases b : q.y ≤ z
  · simp [a, b, not_lt.2 a, not_lt.2 b]
  · have b' := not_le.1 b
    rcases lt_or_gt_of_ne (key h a b') with k | k
    · simp [a, b, b', not_lt.2 a, k, not_lt.2 k.le]
    · simp [a, b, b', not_lt.2 a, k, not_lt.2 k.le]
  · have a' := not_le.1 a
    rcases lt_or_gt_of_ne (key h' b a') with k | k
    · simp [a, b, a', not_lt.2 b, k, not_lt.2 k.le]
    · simp [a, b, a', not_lt.2 b, k, not_lt.2 k.le]
  · simp [a, b, not_le.1 a, not_le.1 b]

theorem wind_mirror {eps x z : ℝ} (he : 0 < eps) {pss : List (List (Segs.Pt ℝ))} (hx : Distant eps pss x z) {ps : List (Segs.Pt ℝ)} (hp : ps ∈ pss) :
    windPolyline (ps.map flipPt) (-x) z = - windPolyline ps x z := by
  have hx := hx ps hp
  have hu := under_sum z ps
  unfold windPolyline
  rw [closedEdges_mirror, List.map_map]
  generalize Segs.closedEdges ps = es at hx hu ⊢
  rw [← zero_sub ((es.map fun e => cross (.line e.1 e.2) x z).sum), ← hu]
  clear hu
  induction es with
  | nil => rfl
  | cons e es ih =>
    simp only [List.map_cons, List.sum_cons, Function.comp_apply] at ih ⊢
    rw [ih fun e' h' => hx e' (by simp [h']), cross_mirror he (hx e (by simp))]
    ring

theorem encloses_mirror {eps x z : ℝ} (he : 0 < eps) {pss : List (List (Segs.Pt ℝ))} (hx : Distant eps pss x z) {as : List (List (Segs.Pt ℝ))} (ha : ∀ ps ∈ as, ps ∈ pss)
    (rule : FillRule) : InShape rule ((mirror as).map fun ps => windPolyline ps (-x) z).sum ↔ InShape rule (as.map fun ps => windPolyline ps x z).sum := by
  have e : ((mirror as).map fun ps => windPolyline ps (-x) z).sum = - (as.map fun ps => windPolyline ps x z).sum := by
    unfold mirror
    rw [List.map_map]
    induction as with
    | nil => simp
    | cons ps as ih =>
      rw [List.map_cons, List.map_cons, List.sum_cons, List.sum_cons, ih fun q hq => ha q (by simp [hq]), neg_add]
      congr 1
      exact wind_mirror he hx (ha ps (by simp))
  rw [e]
  cases rule <;> simp [InShape]

/-! ## The result -/

variable {cfg : Cfg}

/-- **C103.** A boolean operation on polygons in general position, and on their mirror images: both return, and away from the edges the region of the second is the mirror image of
that of the first. -/
theorem C103_mirrored {as bs : List (List (Segs.Pt ℝ))} (again again' : Nat → Nat → Bool) (he : 0 < cfg.eps) (hpp : Searches cfg.pp) (hf : OneFirst cfg.first)
    (hP : LoosePolygons cfg.eps (as ++ bs)) (hB : BeyondCorners cfg (as ++ bs)) (hB' : BeyondCorners cfg (mirror (as ++ bs))) (rule : FillRule) (op : Op) :
    ∃ N out out', (∀ fuel, N ≤ fuel → polylineOpPaths cfg again as bs rule op fuel = .ok out ∧ polylineOpPaths cfg again' (mirror as) (mirror bs) rule op fuel = .ok out') ∧
      RightPaths cfg.eps as bs rule op out ∧ ∀ x z, Distant cfg.eps (as ++ bs) x z → windOut out' (-x) z = windOut out x z := by
  have es : mirror (as ++ bs) = mirror as ++ mirror bs := List.map_append
  obtain ⟨N, out, h1, h2⟩ := C94_crossing (cfg := cfg) again he hpp hf hP hB rule op
  obtain ⟨N', out', h1', h2'⟩ := C94_crossing (cfg := cfg) again' he hpp hf (by rw [← es]; exact hP.mirror) (by rw [← es]; exact hB') rule op
  refine ⟨max N N', out, out', fun fuel h => ⟨h1 fuel (by omega), h1' fuel (by omega)⟩, h2, fun x z hx => ?_⟩
  have k := h2.winding x z hx
  have k' := h2'.winding (-x) z (by rw [← es]; exact hx.mirror)
  rw [propext (encloses_mirror he hx (as := as) (fun _ h => List.mem_append_left _ h) rule), propext (encloses_mirror he hx (as := bs) (fun _ h => List.mem_append_right _ h) rule)] at k'
  by_cases hc : Combine op (InShape rule (as.map fun ps => windPolyline ps x z).sum) (InShape rule (bs.map fun ps => windPolyline ps x z).sum)
  · rw [k.1 hc, k'.1 hc]
  · rw [k.2 hc, k'.2 hc]

/-! ## Example -/

/-- The triangles that cross, mirrored. -/
theorem Cross.mirrored : ∃ N out',
    (∀ fuel, N ≤ fuel → polylineOpPaths Cross.cfg' (fun _ _ => true) (mirror [Cross.up]) (mirror [Cross.upsideDown]) .nonZero .intersection fuel = .ok out') ∧
    windOut out' (-0) 7 = 1 ∧ windOut out' (-0) 2 = 0 := by
  have hB' : BeyondCorners Cross.cfg' (mirror ([Cross.up] ++ [Cross.upsideDown])) := by
    intro ps' hps' e' he'
    obtain ⟨ps, hps, rfl⟩ := List.mem_map.1 hps'
    rw [closedEdges_mirror] at he'
    obtain ⟨e, he, rfl⟩ := List.mem_map.1 he'
    simp only [List.cons_append, List.nil_append, List.mem_cons, List.not_mem_nil, or_false] at hps
    rcases hps with rfl | rfl
    all_goals
      simp [Segs.closedEdges, Cross.up, Cross.upsideDown, List.mem_cons] at he
      rcases he with rfl | rfl | rfl <;> norm_num [Cross.cfg', flipPt]
  obtain ⟨N, out, out', h1, hr, h2⟩ := C103_mirrored (cfg := Cross.cfg') (as := [Cross.up]) (bs := [Cross.upsideDown]) (fun _ _ => true) (fun _ _ => true)
    (by norm_num [Cross.cfg', Cross.cfg]) Ex.searches Cross.oneFirst Cross.loose Cross.beyond hB' .nonZero .intersection
  have d7 := Cross.distant_middle (z := 7) (by simp)
  have d2 := Cross.distant_middle (z := 2) (by simp)
  refine ⟨N, out', fun fuel h => (h1 fuel h).2, ?_, ?_⟩
  · rw [h2 0 7 d7]
    refine (hr.winding 0 7 d7).1 ?_
    simp only [Combine, InShape, List.map_cons, List.map_nil, List.sum_cons, List.sum_nil, Cross.up_wind, Cross.down_wind]
    norm_num
  · rw [h2 0 2 d2]
    refine (hr.winding 0 2 d2).2 ?_
    simp only [Combine, InShape, List.map_cons, List.map_nil, List.sum_cons, List.sum_nil, Cross.up_wind, Cross.down_wind]
    norm_num

end Verif.Full
