import Verif.Sweep.EventOrder
import Verif.Full.ManyCurves

/-!
# C99: the callback interface `sweep::sweep` on paths

What the callback is told about real curves.
-/

namespace Verif.Full
open Verif.Segs (Segments PathEl)
open Verif.Curve Verif.BinOp

/-- sweep/mod.rs:19-33 (`sweep`) on the segments `s`: the calls of the callback. One bound for the number of lines and the number of intersections
on one line. -/
noncomputable def sweepCalls (cfg : Cfg) (s : Segments ℝ) (fuel : Nat) : Option (List (ℝ × Range.OutputEvent ℝ)) := Sweep.callbacks (env cfg s) fuel fuel

/-- What the callback should be told: positions at heights that do not decrease, in blocks from left to right (`Sweep.InBlocks`); for every segment its way from its start to its end (`Sweep.Walk`); every
position is within the tolerance of the segment. -/
structure RightCalls (cfg : Cfg) (s : Segments ℝ) (out : List (ℝ × Range.OutputEvent ℝ)) : Prop where
  down : out.Pairwise fun p q => p.1 ≤ q.1
  blocks : ∃ bs, Sweep.InBlocks out bs
  known : ∀ q ∈ out, q.2.segIdx < s.len
  walk : ∀ a < s.len, ∃ vs, Sweep.Walk (env cfg s) a out vs
  near : ∀ q ∈ out, q.2.x0 ∈ (segAt s q.2.segIdx).Near q.1 cfg.eps ∧ q.2.x1 ∈ (segAt s q.2.segIdx).Near q.1 cfg.eps

section
variable {T : Type} {cfg : Cfg} {s : Segments ℝ} {tags : List T} {fuel : Nat} {out : List (ℝ × Range.OutputEvent ℝ)}

/-- **C99.** Whatever the segments, also if they are not in general position: if `sweep` returns, the callback has been told the way of every segment. -/
theorem C99_arena (ha : Arena s tags) (hpp : Searches cfg.pp) (h : sweepCalls cfg s fuel = some out) :
    (out.Pairwise fun p q => p.1 ≤ q.1) ∧ (∃ bs, Sweep.InBlocks out bs) ∧ (∀ q ∈ out, q.2.segIdx < s.len) ∧ ∀ a < s.len, ∃ vs, Sweep.Walk (env cfg s) a out vs := by
  obtain ⟨h1, h2, h3⟩ := Sweep.C99_told (env_sched ha) (env_exact ha) (env_pp hpp) h
  exact ⟨h1, Sweep.C99_order (env_sched ha) (env_exact ha) (env_pp hpp) h, fun q hq => (mem_segs ha _).1 (h2 q hq), fun a hl => h3 a ((mem_segs ha a).2 hl)⟩

/-- A position between the ends of a horizontal line is on it. -/
theorem on_flat {eps : ℝ} (he : 0 < eps) {p0 p1 : Geom.Pt} (heq : p0.y = p1.y) {x y : ℝ} (g1 : min p0.x p1.x ≤ x) (g2 : x ≤ max p0.x p1.x) (hy : y = p0.y) :
    x ∈ (Geom.Seg.line p0 p1).Near y eps := by
  refine ⟨⟨x, y⟩, ?_, by rw [sub_self, abs_zero]; exact he.le, by rw [sub_self, abs_zero]; exact he.le⟩
  by_cases hx : p0.x = p1.x
  · rw [hx, min_self] at g1
    rw [hx, max_self] at g2
    refine ⟨0, le_rfl, zero_le_one, ?_⟩
    simp only [Geom.Pt.affine, Geom.Pt.mk.injEq]
    constructor <;> linarith
  · have hne : p1.x - p0.x ≠ 0 := fun h => hx (by linarith)
    have hb : 0 ≤ (x - p0.x) / (p1.x - p0.x) ∧ (x - p0.x) / (p1.x - p0.x) ≤ 1 := by
      rcases lt_or_gt_of_ne hx with hlt | hlt
      · rw [min_eq_left hlt.le] at g1
        rw [max_eq_right hlt.le] at g2
        have hpos : 0 < p1.x - p0.x := by linarith
        exact ⟨div_nonneg (by linarith) hpos.le, by rw [div_le_one hpos]; linarith⟩
      · rw [min_eq_right hlt.le] at g1
        rw [max_eq_left hlt.le] at g2
        have hneg : p1.x - p0.x < 0 := by linarith
        exact ⟨div_nonneg_of_nonpos (by linarith) hneg.le, by rw [div_le_one_of_neg hneg]; linarith⟩
    refine ⟨(x - p0.x) / (p1.x - p0.x), hb.1, hb.2, ?_⟩
    simp only [Geom.Pt.affine, Geom.Pt.mk.injEq]
    constructor
    · field_simp; ring
    · rw [← heq, hy]; ring

/-- If the sweep is tidy all the calls are right. -/
theorem calls_right (ha : Arena s tags) (he : 0 < cfg.eps) (hpp : Searches cfg.pp) (hT : (env cfg s).Tidy fuel) (h : sweepCalls cfg s fuel = some out) :
    RightCalls cfg s out := by
  obtain ⟨h1, ho, h2, h3⟩ := C99_arena ha hpp h
  refine ⟨h1, ho, h2, h3, fun q hq => ?_⟩
  obtain ⟨⟨a1, a2⟩, b, c⟩ := Sweep.C99_within (env_sched ha) (env_exact ha) (env_pp hpp) hT h q hq
  have hlen := h2 q hq
  have x0 : q.2.smallerX ≤ q.2.x0 ∧ q.2.x0 ≤ q.2.largerX := ⟨min_le_left _ _, le_max_left _ _⟩
  have x1 : q.2.smallerX ≤ q.2.x1 ∧ q.2.x1 ≤ q.2.largerX := ⟨min_le_right _ _, le_max_right _ _⟩
  rcases ((env_sched (cfg := cfg) ha).down _ ((mem_segs ha _).2 hlen)).eq_or_lt with heq | hlt
  · obtain ⟨k1, k2⟩ := c heq
    obtain ⟨g, hg, hf⟩ := ha.seg_fine hlen
    have hseg : segAt s q.2.segIdx = seg g := by unfold segAt; rw [hg]
    cases g with
    | cubic p0 p1 p2 p3 =>
      have hmono := hf.2 p0 p1 p2 p3 rfl
      have : (segAt s q.2.segIdx).start.y < (segAt s q.2.segIdx).stop.y := by rw [hseg]; exact hmono.1
      exact absurd heq this.ne
    | line p0 p1 =>
      change min (segAt s q.2.segIdx).start.x (segAt s q.2.segIdx).stop.x ≤ _ at k1
      change _ ≤ max (segAt s q.2.segIdx).start.x (segAt s q.2.segIdx).stop.x at k2
      change (segAt s q.2.segIdx).start.y ≤ q.1 at a1
      change q.1 ≤ (segAt s q.2.segIdx).stop.y at a2
      change (segAt s q.2.segIdx).start.y = (segAt s q.2.segIdx).stop.y at heq
      rw [hseg] at k1 k2 a1 a2 heq ⊢
      have hy := le_antisymm (a2.trans heq.ge) a1
      exact ⟨on_flat he heq (k1.trans x0.1) (x0.2.trans k2) hy, on_flat he heq (k1.trans x1.1) (x1.2.trans k2) hy⟩
  · have hdown := Slanted.down ha (i := q.2.segIdx) ⟨hlen, hlt⟩
    obtain ⟨k1, k2⟩ := b hlt
    have e1 : (segAt s q.2.segIdx).start.y ≤ q.1 := a1
    have e2 : q.1 ≤ (segAt s q.2.segIdx).stop.y := a2
    exact ⟨near_interval hdown he.le (by linarith) (by linarith) (k1.trans x0.1) (x0.2.trans k2),
      near_interval hdown he.le (by linarith) (by linarith) (k1.trans x1.1) (x1.2.trans k2)⟩

theorem general_calls (ha : Arena s tags) (he : 0 < cfg.eps) (hpp : Searches cfg.pp) (hsolve : Geom.FindsRoots cfg.solve) (hf : OneFirst cfg.first)
    (hG : General cfg s) : ∃ N out, ∀ fuel, N ≤ fuel → sweepCalls cfg s fuel = some out := by
  obtain ⟨N, t, ht⟩ := general_returns ha he hpp hsolve hf hG (fun (_ : T) b => if b then (1 : ℤ) else -1) (by intro t b; cases b <;> simp)
  obtain ⟨out, ho⟩ := Sweep.C99_returns (env_sched ha) (env_exact ha) (env_pp hpp) (ht N le_rfl)
  exact ⟨N, out, fun fuel hfu => Sweep.C99_stable hfu hfu ho⟩

variable {ρ : Nat → ℝ}

/-- **C99.** For paths with curves in general position `sweep` returns, and the calls are right. -/
theorem C99_paths {ps : List (List (PathEl ℝ) × T)} (he : 0 < cfg.eps) (hpp : Searches cfg.pp) (hsolve : Geom.FindsRoots cfg.solve) (hf : OneFirst cfg.first)
    (hb : buildPaths ps = .ok s tags) (hL : LooseCurves cfg.eps ρ s) (hT : Tight cfg.eps ρ s) (hB : Beyond cfg s) :
    ∃ N out, (∀ fuel, N ≤ fuel → sweepCalls cfg s fuel = some out) ∧ RightCalls cfg s out := by
  have ha := buildPaths_arena hb
  have hG := general_of_curves ha he hsolve hf hL
  obtain ⟨N, out, h⟩ := general_calls ha he hpp hsolve hf hG
  exact ⟨N, out, h, calls_right ha he hpp (env_tidy_general ha he hpp hsolve hf hG (meets_curves ha he hsolve hf hL hT) hB N) (h N le_rfl)⟩

/-- **C99.** For polygons in general position `sweep` returns, with any root finder, and the calls are right. -/
theorem C99_polygons {as bs : List (List (Segs.Pt ℝ))} (he : 0 < cfg.eps) (hpp : Searches cfg.pp) (hf : OneFirst cfg.first)
    (hP : LoosePolygons cfg.eps (as ++ bs)) (hB : BeyondCorners cfg (as ++ bs)) :
    ∃ N out, (∀ fuel, N ≤ fuel → sweepCalls cfg (buildPolylines as bs).1 fuel = some out) ∧ RightCalls cfg (buildPolylines as bs).1 out := by
  obtain ⟨ideal, hid⟩ := Geom.findsRoots_exists
  obtain ⟨c, hc⟩ : ∃ c, c = cfg.using ideal := ⟨_, rfl⟩
  have hce : c.eps = cfg.eps := by rw [hc]; rfl
  have hcs : Geom.FindsRoots c.solve := by rw [hc]; exact hid
  have hcp : Searches c.pp := by rw [hc]; exact hpp
  have hcf : OneFirst c.first := by rw [hc]; exact hf
  have hce0 : 0 < c.eps := by rw [hce]; exact he
  have hP' : LoosePolygons c.eps (as ++ bs) := by rw [hce]; exact hP
  have hB' : BeyondCorners c (as ++ bs) := by rw [hc]; exact hB
  have ha := buildPolylines_arena as bs
  have hL := hP'.loose
  have hG := general_of_loose ha hce0 hcs hcf hL
  have henv : env c (buildPolylines as bs).1 = env cfg (buildPolylines as bs).1 := by rw [hc]; exact env_free (lines_polylines as bs) ideal
  obtain ⟨N, out, h⟩ := general_calls ha hce0 hcp hcs hcf hG
  have hT := env_tidy_general ha hce0 hcp hcs hcf hG
    (fun i j t hne _ hb => (blurred_meet ha hce0 hcs hcf hL.line hL.moderate hL.upright hne hb).touching hce0) (beyond_corners hB') N
  unfold sweepCalls at h
  rw [henv] at h hT
  exact ⟨N, out, h, calls_right ha he hpp hT (h N le_rfl)⟩

end

/-! ## Examples -/

/-- The two triangles that cross: the callback is called at least once for every one of the six edges, first at its start. -/
theorem Cross.calls : ∃ N out, (∀ fuel, N ≤ fuel → sweepCalls Cross.cfg' (buildPolylines [Cross.up] [Cross.upsideDown]).1 fuel = some out) ∧
    RightCalls Cross.cfg' (buildPolylines [Cross.up] [Cross.upsideDown]).1 out :=
  C99_polygons (as := [Cross.up]) (bs := [Cross.upsideDown]) (by norm_num [Cross.cfg', Cross.cfg]) Ex.searches Cross.oneFirst Cross.loose Cross.beyond

/-- The two bows. -/
theorem Bow.calls : ∃ s tags N out, buildPaths (tagged Bow.thin Bow.large) = .ok s tags ∧ (∀ fuel, N ≤ fuel → sweepCalls Cross.cfg' s fuel = some out) ∧
    RightCalls Cross.cfg' s out := by
  obtain ⟨s, tags, hb⟩ := Bow.built
  obtain ⟨hl, hp⟩ := Bow.arena_bows hb
  have lt : ∀ {i}, Slanted s i → i < 4 := fun h => by rw [← hl]; exact h.1
  obtain ⟨N, out, h⟩ := C99_paths (cfg := Cross.cfg') (ρ := fun _ => 1 / 5000) (by norm_num [Cross.cfg, Cross.cfg']) Ex.searches
    (Classical.choose_spec Geom.findsRoots_exists) Cross.oneFirst hb (Bow.loose hb)
    (tight_of_steep (buildPaths_arena hb) (by norm_num [Cross.cfg, Cross.cfg']) (σ := fun _ => 1 / 375) (fun i hi => by rw [hp i (lt hi)]; exact ⟨by norm_num, Bow.steep_piece i⟩)
      (fun i j _ _ _ => by norm_num [Cross.cfg', Cross.cfg])) (Bow.beyond hb)
  exact ⟨s, tags, N, out, hb, h⟩

end Verif.Full
