import Verif.Full.Total
import Verif.Full.TotalExample
import Verif.Full.Loose
import Verif.Full.LooseExample
import Verif.Sweep.Accurate

/-!
# C84: the output stays within the tolerance of the input
-/

namespace Verif.Full
open Verif.Segs (Segments PathEl)
open Verif.BinOp (FillRule Op BinaryWinding)
set_option linter.unusedSectionVars false

/-- The infinities with which the bounds of positions start are beyond all segments. -/
def Beyond (cfg : Cfg) (s : Segments ℝ) : Prop := ∀ a < s.len, ∀ p, (segAt s a).On p → cfg.negInf ≤ p.x ∧ p.x ≤ cfg.posInf

/-- The positions of a thickened segment at a height are an interval. -/
theorem near_interval {g : Geom.Seg} (h : g.Down) {y eps x : ℝ} (he : 0 ≤ eps) (h0 : g.start.y ≤ y + eps) (h1 : y - eps ≤ g.stop.y)
    (hl : g.lower y eps ≤ x) (hu : x ≤ g.upper y eps) : x ∈ g.Near y eps := by
  obtain ⟨⟨⟨p, a1, a2, a3⟩, -⟩, ⟨⟨q, b1, b2, b3⟩, -⟩⟩ := Geom.C42_lower_upper g h y eps he h0 h1
  have key : ∀ (f : ℝ → Geom.Pt), Continuous (fun t => (f t).x) → (∀ t, 0 ≤ t → t ≤ 1 → g.On (f t)) →
      (∀ t t', 0 ≤ t → t ≤ t' → t' ≤ 1 → (f t).y ≤ (f t').y) → ∀ t t', 0 ≤ t → t ≤ 1 → 0 ≤ t' → t' ≤ 1 → f t = p → f t' = q → x ∈ g.Near y eps := by
    intro f hc hon hm t t' t0 t1 t0' t1' e e'
    rw [abs_le] at a2 a3 b2 b3
    by_cases c1 : x ≤ p.x + eps
    · exact ⟨p, a1, abs_le.2 a2, abs_le.2 ⟨by linarith, by linarith⟩⟩
    by_cases c2 : q.x - eps ≤ x
    · exact ⟨q, b1, abs_le.2 b2, abs_le.2 ⟨by linarith, by linarith⟩⟩
    push Not at c1 c2
    have hmem : x ∈ Set.uIcc ((fun t => (f t).x) t) ((fun t => (f t).x) t') := by
      dsimp only
      rw [e, e', Set.mem_uIcc]
      left; constructor <;> linarith
    obtain ⟨u, hu, hx⟩ := intermediate_value_uIcc hc.continuousOn hmem
    dsimp only at hx
    rw [Set.mem_uIcc] at hu
    have hu0 : 0 ≤ u := by rcases hu with hu | hu <;> linarith [hu.1]
    have hu1 : u ≤ 1 := by rcases hu with hu | hu <;> linarith [hu.2]
    refine ⟨f u, hon u hu0 hu1, ?_, ?_⟩
    · rw [abs_le]
      rcases hu with hu | hu
      · have k1 := hm t u t0 hu.1 hu1
        have k2 := hm u t' hu0 hu.2 t1'
        rw [e] at k1; rw [e'] at k2
        constructor <;> linarith
      · have k1 := hm t' u t0' hu.1 hu1
        have k2 := hm u t hu0 hu.2 t1
        rw [e'] at k1; rw [e] at k2
        constructor <;> linarith
    · rw [hx, sub_self, abs_zero]; exact he
  cases g with
  | line p0 p1 =>
    obtain ⟨t, t0, t1, e⟩ := a1
    obtain ⟨t', t0', t1', e'⟩ := b1
    have hd : p0.y < p1.y := h
    refine key (fun t => p0.affine p1 t) ?_ (fun t h0 h1 => ⟨t, h0, h1, rfl⟩) ?_ t t' t0 t1 t0' t1' e.symm e'.symm
    · simp only [Geom.Pt.affine]; fun_prop
    · intro u u' _ hu _
      simp only [Geom.Pt.affine]
      nlinarith
  | cubic c =>
    obtain ⟨t, t0, t1, e⟩ := a1
    obtain ⟨t', t0', t1', e'⟩ := b1
    have hd : c.Mono := h
    refine key (fun t => c.eval t) c.cont_x (fun t h0 h1 => ⟨t, h0, h1, rfl⟩) ?_ t t' t0 t1 t0' t1' e.symm e'.symm
    intro u u' h0 hu h1
    exact hd.mono h0 hu h1

section
variable {T W : Type} [AddCommGroup W] [DecidableEq W] {s : Segments ℝ} {tags : List T} {cfg : Cfg} {single : T → Bool → W} {fuel2 fuel : Nat}
  {t : Topo.Topo ℝ W}

/-- If the sweep is tidy, every end of every output segment is in the thickened input segment. -/
theorem ends_near (ha : Arena s tags) (he : 0 < cfg.eps) (hV : (env cfg s).Valid (contribution single tags) fuel2)
    (hT : (env cfg s).Tidy fuel2) (h : sweep cfg single s tags fuel2 fuel = some t) {i : Nat} {p q : ℝ × ℝ} (hi : i < t.n) (hr : Topo.Runs t i p q) :
    t.origSeg i < s.len ∧ p.1 ∈ (segAt s (t.origSeg i)).Near p.2 cfg.eps ∧ q.1 ∈ (segAt s (t.origSeg i)).Near q.2 cfg.eps := by
  have hm := (Sweep.C61_rings hV h).1 i hi
  have hlen := (mem_segs ha _).1 hm
  obtain ⟨⟨a1, a2⟩, ⟨b1, b2⟩, h3, h4⟩ := Sweep.piece_within hV hT h hm ⟨hi, rfl, hr⟩
  refine ⟨hlen, ?_⟩
  rcases (hV.sched.down _ hm).eq_or_lt with heq | hlt
  · have hline : ∃ p0 p1 : Geom.Pt, segAt s (t.origSeg i) = .line p0 p1 := by
      obtain ⟨g, hg, hf⟩ := ha.seg_fine hlen
      have hseg : segAt s (t.origSeg i) = seg g := by unfold segAt; rw [hg]
      cases g with
      | line p0 p1 => exact ⟨_, _, hseg⟩
      | cubic p0 p1 p2 p3 =>
        have hmono := hf.2 p0 p1 p2 p3 rfl
        have : (segAt s (t.origSeg i)).start.y < (segAt s (t.origSeg i)).stop.y := by rw [hseg]; exact hmono.1
        exact absurd heq this.ne
    obtain ⟨p0, p1, e⟩ := hline
    obtain ⟨k1, k2, k3⟩ := h4 heq
    have sx : (env cfg s).startX (t.origSeg i) = p0.x := by show (segAt s _).start.x = _; rw [e]; rfl
    have ex : (env cfg s).endX (t.origSeg i) = p1.x := by show (segAt s _).stop.x = _; rw [e]; rfl
    have sy : (env cfg s).startY (t.origSeg i) = p0.y := by show (segAt s _).start.y = _; rw [e]; rfl
    have ey : (env cfg s).endY (t.origSeg i) = p1.y := by show (segAt s _).stop.y = _; rw [e]; rfl
    rw [sx] at k1; rw [ex] at k3; rw [sy] at a1 b1 heq; rw [ey] at a2 b2 heq
    have on : ∀ x y : ℝ, p0.x ≤ x → x ≤ p1.x → p0.y ≤ y → y ≤ p1.y → x ∈ (Geom.Seg.line p0 p1).Near y cfg.eps := by
      intro x y g1 g2 g3 g4
      have hy : y = p0.y := le_antisymm (g4.trans heq.ge) g3
      refine ⟨⟨x, y⟩, ?_, by rw [sub_self, abs_zero]; exact he.le, by rw [sub_self, abs_zero]; exact he.le⟩
      by_cases hx : p0.x = p1.x
      · refine ⟨0, le_rfl, zero_le_one, ?_⟩
        simp only [Geom.Pt.affine, Geom.Pt.mk.injEq]
        constructor <;> linarith
      · have hpos : 0 < p1.x - p0.x := lt_of_le_of_ne (by linarith) (fun h => hx (by linarith))
        refine ⟨(x - p0.x) / (p1.x - p0.x), div_nonneg (by linarith) hpos.le, by rw [div_le_one hpos]; linarith, ?_⟩
        simp only [Geom.Pt.affine, Geom.Pt.mk.injEq]
        constructor
        · field_simp; ring
        · rw [← heq, hy]; ring
    rw [e]
    exact ⟨on _ _ k1 (k2.trans k3) a1 a2, on _ _ (k1.trans k2) k3 b1 b2⟩
  · have hdown := Slanted.down ha (i := t.origSeg i) ⟨hlen, hlt⟩
    obtain ⟨⟨k1, k2⟩, k3, k4⟩ := h3 hlt
    have e1 : (segAt s (t.origSeg i)).start.y ≤ p.2 := a1
    have e2 : p.2 ≤ (segAt s (t.origSeg i)).stop.y := a2
    have e3 : (segAt s (t.origSeg i)).start.y ≤ q.2 := b1
    have e4 : q.2 ≤ (segAt s (t.origSeg i)).stop.y := b2
    exact ⟨near_interval hdown he.le (by linarith) (by linarith) k1 k2, near_interval hdown he.le (by linarith) (by linarith) k3 k4⟩

theorem bounds (ha : Arena s tags) (he : 0 < cfg.eps) (hB : Beyond cfg s) (a : Nat) (y : ℝ) (h : (env cfg s).On y a) :
    (env cfg s).lower a y + cfg.eps ≤ (env cfg s).atY a y ∧ (env cfg s).atY a y + cfg.eps ≤ (env cfg s).upper a y ∧
    (env cfg s).negInf ≤ (env cfg s).atY a y ∧ (env cfg s).atY a y ≤ (env cfg s).posInf := by
  have hs := (tall_iff ha a).1 h.1
  have hd := hs.down ha
  have hb := Geom.C42_bracket (segAt s a) hd y cfg.eps y he.le (by rw [sub_self, abs_zero]; exact he.le) h.2.1 h.2.2
  refine ⟨hb.1, hb.2, hB a hs.1 ⟨_, y⟩ ?_⟩
  exact ((segAt s a).on_iff hd y _ h.2.1 h.2.2).2 rfl

theorem env_tidy_planar (ha : Arena s tags) (he : 0 < cfg.eps) (hpp : Searches cfg.pp) (hsolve : Geom.FindsRoots cfg.solve) (hN : NoCross s)
    (hR : Resolved cfg s) (hB : Beyond cfg s) (fuel : Nat) : (env cfg s).Tidy fuel := by
  refine Sweep.tidy_planar (env_sched ha) (env_pp hpp) (env_exact ha) (env_planar ha he hsolve hN hR) ?_ ?_ ?_ fuel
  · intro a y h; linarith [(bounds ha he hB a y h).1]
  · intro a y h; linarith [(bounds ha he hB a y h).2.1]
  · intro a y h; exact (bounds ha he hB a y h).2.2

/-- Not more than `eps` above or below the height `t` there are points of the segments `a` and `b` that are horizontally not more than `2 eps` apart. -/
def Touching (eps t : ℝ) (a b : Geom.Seg) : Prop :=
  ∃ y0 y1, (a.start.y ≤ y0 ∧ y0 ≤ a.stop.y) ∧ (b.start.y ≤ y1 ∧ y1 ≤ b.stop.y) ∧ |y0 - t| ≤ eps ∧ |y1 - t| ≤ eps ∧ |b.atY y1 - a.atY y0| ≤ 2 * eps

theorem Meet.touching {eps t : ℝ} (he : 0 < eps) {a b : Geom.Seg} (h : Meet eps t a b) : Touching eps t a b := by
  obtain ⟨y0, y1, h1, h2, h3, h4, h5⟩ := h
  exact ⟨y0, y1, h1, h2, h3, h4, by linarith⟩

/-- Where two segments that are not calm are not told apart they meet. -/
def Meets (cfg : Cfg) (s : Segments ℝ) : Prop := ∀ i j t, i ≠ j → ¬ Calm cfg s i j → Blurred cfg s t i j → Touching cfg.eps t (segAt s i) (segAt s j)

theorem env_tidy_general (ha : Arena s tags) (he : 0 < cfg.eps) (hpp : Searches cfg.pp) (hsolve : Geom.FindsRoots cfg.solve) (hf : OneFirst cfg.first)
    (hG : General cfg s) (hM : Meets cfg s) (hB : Beyond cfg s) (fuel : Nat) : (env cfg s).Tidy fuel := by
  refine Sweep.tidy_generic (env_sched ha) (env_pp hpp) (env_exact ha) (env_generic ha he hsolve hf hG) ?_ ?_ ?_ ?_ ?_ fuel
  · intro a y h; linarith [(bounds ha he hB a y h).1]
  · intro a y h; linarith [(bounds ha he hB a y h).2.1]
  · intro a y h; exact (bounds ha he hB a y h).2.2
  · intro y a b h1 h2 hne hns
    by_cases hs : (env cfg s).Sure y a b
    · have := (env_comparable ha he hsolve).sure_lt hs
      linarith [(bounds ha he hB a y h1).1, (bounds ha he hB b y h2).2.1]
    · by_cases hw : Calm cfg s a b
      · have := Sweep.atY_of_lt h1 h2 (hns.2.2 hw)
        linarith [(bounds ha he hB a y h1).1, (bounds ha he hB b y h2).2.1]
      obtain ⟨y0, y1, k1, k2, k3, k4, k5⟩ := hM a b y hne hw (blurred_of_near ha ((on_iff ha).1 h1) ((on_iff ha).1 h2) ⟨hs, hns.1⟩)
      have g1 := (Geom.C42_bracket (segAt s a) (((tall_iff ha a).1 h1.1).down ha) y cfg.eps y0 he.le k3 k1.1 k1.2).1
      have g2 := (Geom.C42_bracket (segAt s b) (((tall_iff ha b).1 h2.1).down ha) y cfg.eps y1 he.le k4 k2.1 k2.2).2
      change (segAt s a).lower y cfg.eps ≤ (segAt s b).upper y cfg.eps
      rw [abs_le] at k5
      linarith
  · intro y a b h1 h2 hne hc hns
    exact inOrder_le ha he hsolve hG hne h1 h2 hc hns

end

/-! ## Boolean operations -/

/-- Every output segment has both ends within `eps` (in each coordinate) of points of the input segment that it is a part of. -/
def Accurate {W : Type} (eps : ℝ) (s : Segments ℝ) (t : Topo.Topo ℝ W) : Prop :=
  ∀ i < t.n, ∀ p q, Topo.Runs t i p q → t.origSeg i < s.len ∧
    (∃ r, (segAt s (t.origSeg i)).On r ∧ |p.1 - r.x| ≤ eps ∧ |p.2 - r.y| ≤ eps) ∧ (∃ r, (segAt s (t.origSeg i)).On r ∧ |q.1 - r.x| ≤ eps ∧ |q.2 - r.y| ≤ eps)

variable {cfg : Cfg} {s s' : Segments ℝ} {tags : List Bool} {rule : FillRule} {op : Op} {fuel : Nat} {t' : Topo.Topo ℝ BinaryWinding}
  {cs : List Contours.Contour}

theorem sweep_accurate {T W : Type} [AddCommGroup W] [DecidableEq W] {single : T → Bool → W} {tags : List T} {fuel2 : Nat} {t t' : Topo.Topo ℝ W}
    (ha : Arena s tags) (he : 0 < cfg.eps) (hV : (env cfg s).Valid (contribution single tags) fuel2) (hT : (env cfg s).Tidy fuel2)
    (h1 : sweep cfg single s tags fuel2 fuel = some t) (h2 : Merge.mergeCoincident (close cfg.eps s) t = some t') : Accurate cfg.eps s t' := by
  obtain ⟨t1, hm, e1, e2, e3, e4, -⟩ := Sweep.C61_merge hV h1 (close cfg.eps s)
  rw [h2, Option.some.injEq] at hm
  subst hm
  intro i hi p q hr
  have hr' : Topo.Runs t i p q := by
    obtain ⟨a, b, h3, h4, h5, h6⟩ := hr
    rw [e3] at h3 h4
    rw [e2] at h5 h6
    exact ⟨a, b, h3, h4, h5, h6⟩
  rw [e1] at hi
  rw [e4]
  obtain ⟨g1, ⟨r, r1, r2, r3⟩, u, u1, u2, u3⟩ := ends_near ha he hV hT h1 hi hr'
  exact ⟨g1, ⟨r, r1, r3, by rw [abs_sub_comm]; exact r2⟩, u, u1, u3, by rw [abs_sub_comm]; exact u2⟩

theorem finish_accurate (ha : Arena s tags) (he : 0 < cfg.eps) (hV : (env cfg s).Valid (contribution BinaryWinding.single tags) fuel)
    (hT : (env cfg s).Tidy fuel) (h : finish cfg rule op s tags fuel = .ok s' t' cs) : Accurate cfg.eps s' t' := by
  obtain ⟨rfl, t, h1, h2, -⟩ := finish_ok h
  exact sweep_accurate ha he hV hT h1 h2

/-- C84: for paths that do not cross themselves or each other, every end of every segment of the result is within the tolerance of the input
segment that it comes from. -/
theorem C84_paths {a b : List (PathEl ℝ)} (he : 0 < cfg.eps) (hpp : Searches cfg.pp) (hsolve : Geom.FindsRoots cfg.solve)
    (h : binaryOp cfg a b rule op fuel = .ok s' t' cs) (hN : NoCross s') (hR : Resolved cfg s') (hB : Beyond cfg s') : Accurate cfg.eps s' t' := by
  obtain ⟨s, tags, hb, h1⟩ := binaryOp_ok h
  obtain ⟨rfl, -⟩ := finish_ok h1
  have ha := buildPaths_arena hb
  exact finish_accurate ha he (env_valid ha he hpp _ BinaryWinding.single_neg (planar_order ha he hpp hsolve hN hR fuel))
    (env_tidy_planar ha he hpp hsolve hN hR hB fuel) h1

/-- C84 for paths that may cross, in general position. -/
theorem C84_general {a b : List (PathEl ℝ)} (he : 0 < cfg.eps) (hpp : Searches cfg.pp) (hsolve : Geom.FindsRoots cfg.solve) (hf : OneFirst cfg.first)
    (h : binaryOp cfg a b rule op fuel = .ok s' t' cs) (hG : General cfg s') (hM : Meets cfg s') (hB : Beyond cfg s') : Accurate cfg.eps s' t' := by
  obtain ⟨s, tags, hb, h1⟩ := binaryOp_ok h
  obtain ⟨rfl, -⟩ := finish_ok h1
  have ha := buildPaths_arena hb
  exact finish_accurate ha he (env_valid ha he hpp _ BinaryWinding.single_neg (general_order ha he hpp hsolve hf hG fuel))
    (env_tidy_general ha he hpp hsolve hf hG hM hB fuel) h1

/-- For straight segments all of the output segment is near the input segment. -/
theorem chord_near {p0 p1 : Geom.Pt} {p q : ℝ × ℝ} {eps : ℝ} (hp : ∃ r, (Geom.Seg.line p0 p1).On r ∧ |p.1 - r.x| ≤ eps ∧ |p.2 - r.y| ≤ eps)
    (hq : ∃ r, (Geom.Seg.line p0 p1).On r ∧ |q.1 - r.x| ≤ eps ∧ |q.2 - r.y| ≤ eps) {u : ℝ} (u0 : 0 ≤ u) (u1 : u ≤ 1) :
    ∃ v : ℝ, 0 ≤ v ∧ v ≤ 1 ∧ |(1 - u) * p.1 + u * q.1 - ((1 - v) * p0.x + v * p1.x)| ≤ eps ∧ |(1 - u) * p.2 + u * q.2 - ((1 - v) * p0.y + v * p1.y)| ≤ eps := by
  obtain ⟨_, ⟨t, t0, t1, rfl⟩, a1, a2⟩ := hp
  obtain ⟨_, ⟨w, w0, w1, rfl⟩, b1, b2⟩ := hq
  simp only [Geom.Pt.affine] at a1 a2 b1 b2
  rw [abs_le] at a1 a2 b1 b2
  have mix : ∀ a b : ℝ, (-eps ≤ a ∧ a ≤ eps) → (-eps ≤ b ∧ b ≤ eps) → |(1 - u) * a + u * b| ≤ eps := by
    intro a b ha hb
    rw [abs_le]
    constructor <;> nlinarith [mul_nonneg (sub_nonneg.2 u1) (by linarith [ha.1] : 0 ≤ a + eps), mul_nonneg (sub_nonneg.2 u1) (by linarith [ha.2] : 0 ≤ eps - a),
      mul_nonneg u0 (by linarith [hb.1] : 0 ≤ b + eps), mul_nonneg u0 (by linarith [hb.2] : 0 ≤ eps - b)]
  refine ⟨(1 - u) * t + u * w, by nlinarith, by nlinarith, ?_, ?_⟩
  · refine le_of_eq_of_le ?_ (mix _ _ a1 b1)
    congr 1; ring
  · refine le_of_eq_of_le ?_ (mix _ _ a2 b2)
    congr 1; ring

/-- All of every output segment, drawn as a straight line, is within `eps` of one edge of the polygons. -/
def NearEdges {W : Type} (eps : ℝ) (pss : List (List (Segs.Pt ℝ))) (t : Topo.Topo ℝ W) : Prop :=
  ∀ i < t.n, ∀ p q, Topo.Runs t i p q → ∃ ps ∈ pss, ∃ e ∈ Segs.closedEdges ps, ∀ u : ℝ, 0 ≤ u → u ≤ 1 → ∃ v : ℝ, 0 ≤ v ∧ v ≤ 1 ∧
    |(1 - u) * p.1 + u * q.1 - ((1 - v) * e.1.x + v * e.2.x)| ≤ eps ∧ |(1 - u) * p.2 + u * q.2 - ((1 - v) * e.1.y + v * e.2.y)| ≤ eps

theorem nearEdges {W : Type} {t' : Topo.Topo ℝ W} {as bs : List (List (Segs.Pt ℝ))} {eps : ℝ} (h : Accurate eps (buildPolylines as bs).1 t') : NearEdges eps (as ++ bs) t' := by
  intro i hi p q hr
  obtain ⟨h1, h2, h3⟩ := h i hi p q hr
  obtain ⟨ps, hps, e, he, hseg⟩ := segment_edge h1
  refine ⟨ps, hps, e, he, fun u u0 u1 => ?_⟩
  rcases hseg with hseg | hseg
  · rw [hseg] at h2 h3
    exact chord_near h2 h3 u0 u1
  · rw [hseg] at h2 h3
    obtain ⟨v, v0, v1, g1, g2⟩ := chord_near h2 h3 u0 u1
    refine ⟨1 - v, by linarith, by linarith, ?_, ?_⟩
    · refine le_of_eq_of_le ?_ g1
      congr 1; simp only [pt]; ring
    · refine le_of_eq_of_le ?_ g2
      congr 1; simp only [pt]; ring

/-- The infinities are beyond all corners. -/
def BeyondCorners (cfg : Cfg) (pss : List (List (Segs.Pt ℝ))) : Prop :=
  ∀ ps ∈ pss, ∀ e ∈ Segs.closedEdges ps, (cfg.negInf ≤ e.1.x ∧ e.1.x ≤ cfg.posInf) ∧ cfg.negInf ≤ e.2.x ∧ e.2.x ≤ cfg.posInf

theorem beyond_corners {as bs : List (List (Segs.Pt ℝ))} (h : BeyondCorners cfg (as ++ bs)) : Beyond cfg (buildPolylines as bs).1 := by
  intro a ha p hp
  obtain ⟨ps, hps, e, he, hseg⟩ := segment_edge ha
  obtain ⟨⟨a1, a2⟩, b1, b2⟩ := h ps hps e he
  rcases hseg with hseg | hseg
  · rw [hseg] at hp
    obtain ⟨t, t0, t1, rfl⟩ := hp
    simp only [Geom.Pt.affine, pt]
    constructor <;> nlinarith
  · rw [hseg] at hp
    obtain ⟨t, t0, t1, rfl⟩ := hp
    simp only [Geom.Pt.affine, pt]
    constructor <;> nlinarith

/-- C84 for polygons whose edges do not cross and are clearly apart where they differ: the operation returns, and all of every edge of the result
is within the tolerance of one edge of the input. -/
theorem C84_polygons {as bs : List (List (Segs.Pt ℝ))} (he : 0 < cfg.eps) (hpp : Searches cfg.pp) (hsolve : Geom.FindsRoots cfg.solve)
    (hP : Polygons cfg.eps (as ++ bs)) (hB : BeyondCorners cfg (as ++ bs)) (rule : FillRule) (op : Op) :
    ∃ N t' cs, (∀ fuel, N ≤ fuel → polylineOp cfg as bs rule op fuel = .ok (buildPolylines as bs).1 t' cs) ∧ NearEdges cfg.eps (as ++ bs) t' := by
  have ha := buildPolylines_arena as bs
  have hR := resolved_of_apart he hsolve hP.nocross' hP.apart
  obtain ⟨N, t', cs, h⟩ := finish_returns ha he hpp hsolve hP.nocross' hR rule op
  refine ⟨N, t', cs, h, nearEdges ?_⟩
  exact finish_accurate ha he (env_valid ha he hpp _ BinaryWinding.single_neg (planar_order ha he hpp hsolve hP.nocross' hR N))
    (env_tidy_planar ha he hpp hsolve hP.nocross' hR (beyond_corners hB) N) (h N le_rfl)

/-- C84 for polygons whose edges may cross, in general position: the operation returns, and all of every edge of the result is within the
tolerance of one edge of the input. -/
theorem C84_crossing {as bs : List (List (Segs.Pt ℝ))} (he : 0 < cfg.eps) (hpp : Searches cfg.pp) (hsolve : Geom.FindsRoots cfg.solve)
    (hf : OneFirst cfg.first) (hP : LoosePolygons cfg.eps (as ++ bs)) (hB : BeyondCorners cfg (as ++ bs)) (rule : FillRule) (op : Op) :
    ∃ N t' cs, (∀ fuel, N ≤ fuel → polylineOp cfg as bs rule op fuel = .ok (buildPolylines as bs).1 t' cs) ∧ NearEdges cfg.eps (as ++ bs) t' := by
  have ha := buildPolylines_arena as bs
  have hL := hP.loose
  have hG := general_of_loose ha he hsolve hf hL
  obtain ⟨N, t', cs, h⟩ := finish_general ha he hpp hsolve hf hG rule op
  refine ⟨N, t', cs, h, nearEdges ?_⟩
  exact finish_accurate ha he (env_valid ha he hpp _ BinaryWinding.single_neg (general_order ha he hpp hsolve hf hG N))
    (env_tidy_general ha he hpp hsolve hf hG (fun i j t hne _ hb => (blurred_meet ha he hsolve hf hL.line hL.moderate hL.upright hne hb).touching he) (beyond_corners hB) N) (h N le_rfl)

namespace Ex

/-- The configuration of the example, with infinities beyond the corners. -/
noncomputable def cfg' : Cfg := { Ex.cfg with negInf := -100, posInf := 100 }

/-- The triangle without the square: all of every edge of the result is within a tenth of an edge of the input. -/
theorem triangle_accurate : ∃ N t' cs, (∀ fuel, N ≤ fuel → polylineOp cfg' [triangle] [square] .nonZero .difference fuel = .ok (buildPolylines [triangle] [square]).1 t' cs) ∧
    NearEdges (1 / 10) [triangle, square] t' := by
  refine C84_polygons (cfg := cfg') (as := [triangle]) (bs := [square]) (by norm_num [cfg', Ex.cfg]) searches
    (Classical.choose_spec Geom.findsRoots_exists) polygons ?_ .nonZero .difference
  intro ps hps e he
  simp only [List.cons_append, List.nil_append, List.mem_cons, List.not_mem_nil, or_false] at hps
  rcases hps with rfl | rfl
  all_goals
    simp [Segs.closedEdges, triangle, square, List.mem_cons] at he
    rcases he with rfl | rfl | rfl | rfl <;> norm_num [cfg']

end Ex

namespace Cross

/-- The configuration of the example, with infinities beyond the corners. -/
noncomputable def cfg' : Cfg := { Cross.cfg with negInf := -100, posInf := 100 }

/-- The exclusive or of two triangles that cross: all of every edge of the result is within a hundredth of an edge of the input. -/
theorem xor_accurate : ∃ N t' cs, (∀ fuel, N ≤ fuel → polylineOp cfg' [up] [upsideDown] .nonZero .xor fuel = .ok (buildPolylines [up] [upsideDown]).1 t' cs) ∧
    NearEdges (1 / 100) [up, upsideDown] t' := by
  refine C84_crossing (cfg := cfg') (as := [up]) (bs := [upsideDown]) (by norm_num [cfg', Cross.cfg]) Ex.searches
    (Classical.choose_spec Geom.findsRoots_exists) oneFirst loose ?_ .nonZero .xor
  intro ps hps e he
  simp only [List.cons_append, List.nil_append, List.mem_cons, List.not_mem_nil, or_false] at hps
  rcases hps with rfl | rfl
  all_goals
    simp [Segs.closedEdges, up, upsideDown, List.mem_cons] at he
    rcases he with rfl | rfl | rfl <;> norm_num [cfg']

end Cross

end Verif.Full
