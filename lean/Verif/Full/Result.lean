import Verif.Full.Wind
import Verif.Full.Compare
import Verif.Merge.Count

/-! # The contours of the result -/

namespace Verif.Full
open Verif.Segs (Segments PathSeg PathEl Origin)
open Verif.Merge (change total merged_total signedCount signedCount_eq ind EndAdjacent Coincident mergeCoincident)
set_option linter.unusedSectionVars false

variable {T W : Type} [AddCommGroup W] [DecidableEq W]
variable {cfg : Cfg} {s : Segments ℝ} {tags : List T} {single : T → Bool → W} {fuel2 fuel : Nat} {t t' : Topo.Topo ℝ W}

/-! ## Along the scan line -/

theorem telescope (t : Topo.Topo ℝ W) (f : W → Int) (l1 : List Nat)
    (h : ∀ a o b, l1 = a ++ o :: b → (t.winding o).cw = match a.getLast? with | none => 0 | some o' => (t.winding o').ccw) :
    (l1.map (change t f)).sum = (match l1.getLast? with | none => f 0 | some o => f (t.winding o).ccw) - f 0 := by
  induction l1 using List.reverseRecOn with
  | nil => simp
  | append_singleton l o ih =>
    rw [List.map_append, List.sum_append, ih fun a o' b e => h a o' (b ++ [o]) (by rw [e]; simp)]
    have := h l o [] rfl
    simp only [List.map_cons, List.map_nil, List.sum_cons, List.sum_nil, add_zero, change, List.getLast?_append, List.getLast?_singleton, Option.some_or, this]
    cases l.getLast? <;> simp

open Classical in
/-- Left of the point `(x, z)`: output segment `i` crosses the height `z`, and there the input segment it belongs to is to the left of `x`. -/
def LeftAt (s : Segments ℝ) (t : Topo.Topo ℝ W) (x z : ℝ) (i : Nat) : Prop := Scan.AliveAt t i z ∧ (segAt s (t.origSeg i)).atY z < x

theorem gap_total {m : Scan.Maps ℝ} {x z : ℝ} {w : W} {l1 l2 : List Nat} (h : GapAt s t m x z w l1 l2) (f : W → Int) :
    total t.n (LeftAt s t x z) (change t f) = f w - f 0 := by
  classical
  have hperm : l1.Perm ((List.range t.n).filter fun i => decide (LeftAt s t x z i)) := by
    rw [List.perm_ext_iff_of_nodup]
    · intro i
      rw [List.mem_filter, List.mem_range, decide_eq_true_eq]
      constructor
      · intro hi
        have ha := (h.alive i).1 (by simp [hi])
        exact ⟨ha.1, ha, h.left i hi⟩
      · rintro ⟨_, ha, hlt⟩
        rcases List.mem_append.1 ((h.alive i).2 ha) with hi | hi
        · exact hi
        · exact absurd hlt (not_lt.2 (h.right i hi))
    · exact (List.nodup_append.1 h.nodup).1
    · exact List.Nodup.filter _ List.nodup_range
  have e : total t.n (LeftAt s t x z) (change t f) = (l1.map (change t f)).sum := by
    rw [(hperm.map _).sum_eq]
    unfold Verif.Merge.total
    induction List.range t.n with
    | nil => rfl
    | cons i l ih =>
      by_cases hP : LeftAt s t x z i
      · rw [List.map_cons, List.sum_cons, ih, if_pos hP, List.filter_cons_of_pos (by simpa using hP), List.map_cons, List.sum_cons]
      · rw [List.map_cons, List.sum_cons, ih, if_neg hP, List.filter_cons_of_neg (by simpa using hP), zero_add]
  rw [e, telescope t f l1 fun a o b e => h.along a o (b ++ l2) (by rw [e]; simp)]
  cases hl : l1.getLast? with
  | none =>
    have : l1 = [] := by simpa using hl
    rw [h.outer (.inl this)]
  | some o =>
    dsimp only
    rw [h.west o hl]

/-! ## Coincident segments are on the same side -/

/-- An output segment does not leave the range of heights of its input segment. -/
theorem runs_within (hV : (env cfg s).Valid (contribution single tags) fuel2) (h : sweep cfg single s tags fuel2 fuel = some t) {i : Nat} {p q : ℝ × ℝ}
    (hi : i < t.n) (hr : Topo.Runs t i p q) : (segAt s (t.origSeg i)).start.y ≤ p.2 ∧ q.2 ≤ (segAt s (t.origSeg i)).stop.y ∧ p.2 ≤ q.2 := by
  have hm := (Sweep.C61_rings hV h).1 i hi
  obtain ⟨vs, ⟨v0, c1, c2, -⟩, ⟨v1, d1, d2, -⟩, c3, -, c5⟩ := Sweep.C61_traced hV h _ hm
  have hinc : vs.IsChain fun v w => v.y < w.y := by
    rw [List.isChain_iff_forall_rel_of_append_cons_cons]
    intro a b l1 l2 e
    exact (c3 l1 a b l2 e).1
  have hpw := List.isChain_iff_pairwise.1 hinc
  have hlo : ∀ v ∈ vs, (env cfg s).startY (t.origSeg i) ≤ v.y := by
    intro v hv
    rw [← c2]
    cases vs with
    | nil => simp at hv
    | cons a l =>
      obtain rfl : a = v0 := by simpa using c1
      rcases List.mem_cons.1 hv with rfl | hv
      · exact le_rfl
      · exact ((List.pairwise_cons.1 hpw).1 v hv).le
  have hhi : ∀ v ∈ vs, v.y ≤ (env cfg s).endY (t.origSeg i) := by
    intro v hv
    rw [← d2]
    obtain ⟨l, rfl⟩ : ∃ l, vs = l ++ [v1] := by rw [List.getLast?_eq_some_iff] at d1; exact d1
    rcases List.mem_append.1 hv with hv | hv
    · exact ((List.pairwise_append.1 hpw).2.2 v hv v1 (by simp)).le
    · obtain rfl : v = v1 := by simpa using hv
      exact le_rfl
  rcases c5 i p q ⟨hi, rfl, hr⟩ with ⟨v, hv, e1, e2, _⟩ | ⟨l, v, w, l', e1, rfl, rfl⟩
  · rw [e1, e2]; exact ⟨hlo v hv, hhi v hv, le_rfl⟩
  · exact ⟨hlo v (by rw [e1]; simp), hhi w (by rw [e1]; simp), (c3 l v w l' e1).1.le⟩

theorem dist_le {p q : Geom.Pt} {e : ℝ} (he : 0 ≤ e) (h : ¬ e < dist p q) : Geom.lInfty p q ≤ e := by
  have h := not_lt.1 h
  unfold dist at h
  rw [Real.sqrt_le_left he] at h
  unfold Geom.lInfty
  refine max_le (abs_le_of_sq_le_sq ?_ he) (abs_le_of_sq_le_sq ?_ he) <;> nlinarith [sq_nonneg (p.x - q.x), sq_nonneg (p.y - q.y)]

theorem close_maxDistance {eps : ℝ} (he : 0 ≤ eps) {a b : Nat} {y0 y1 : ℝ} (h : close eps s a b y0 y1 = true) :
    Geom.maxDistance (Geom.ySubsegment (segAt s a).toCubic y0 y1) (Geom.ySubsegment (segAt s b).toCubic y0 y1) ≤ eps := by
  classical
  unfold close at h
  simp only [Bool.not_eq_true', Bool.or_eq_false_iff, decide_eq_false_iff_not] at h
  obtain ⟨⟨⟨h0, h1⟩, h2⟩, h3⟩ := h
  unfold Geom.maxDistance
  exact max_le (max_le (max_le (dist_le he h0) (dist_le he h1)) (dist_le he h2)) (dist_le he h3)

theorem solveX_atY {g : Geom.Seg} (h : g.Down) {t : ℝ} (h0 : g.start.y ≤ t) (h1 : t ≤ g.stop.y) : Geom.solveX g.toCubic t = g.atY t :=
  (Geom.at_solveX (toCubic_mono h) (toCubic_at h h0 h1)).1.symm

/-- Close segments: next to every point of one, up to `eps` higher or lower, there is a point of the other that is not more than `eps` away horizontally. -/
theorem close_near {eps : ℝ} (he : 0 ≤ eps) {a b : Nat} {y0 y1 : ℝ} (h : close eps s a b y0 y1 = true) (ha : (segAt s a).Down) (hb : (segAt s b).Down)
    (a0 : (segAt s a).start.y ≤ y0) (a1 : y1 ≤ (segAt s a).stop.y) (b0 : (segAt s b).start.y ≤ y0) (b1 : y1 ≤ (segAt s b).stop.y) {z : ℝ} (hz0 : y0 ≤ z)
    (hz1 : z ≤ y1) : ∃ y, |y - z| ≤ eps ∧ y0 ≤ y ∧ y ≤ y1 ∧ |(segAt s b).atY y - (segAt s a).atY z| ≤ eps := by
  have hd := close_maxDistance he h
  have ea := Geom.C42_to_cubic (segAt s a)
  have eb := Geom.C42_to_cubic (segAt s b)
  have sa : (segAt s a).toCubic.Spans y0 y1 := ⟨by rw [ea.2.1]; exact a0, hz0.trans hz1, by rw [ea.2.2]; exact a1⟩
  have sb : (segAt s b).toCubic.Spans y0 y1 := ⟨by rw [eb.2.1]; exact b0, hz0.trans hz1, by rw [eb.2.2]; exact b1⟩
  obtain ⟨u, u0, u1, e⟩ := Geom.sub_pt (toCubic_mono ha) sa hz0 hz1
  obtain ⟨m1, m2⟩ := Geom.maxDistance_eval (Geom.ySubsegment (segAt s a).toCubic y0 y1) (Geom.ySubsegment (segAt s b).toCubic y0 y1) u0 u1
  obtain ⟨k1, k2, k3⟩ := Geom.sub_on (toCubic_mono hb) sb u0 u1
  rw [e] at m1 m2
  dsimp only at m1 m2
  rw [solveX_atY ha (a0.trans hz0) (hz1.trans a1)] at m1
  rw [k3, solveX_atY hb (b0.trans k1) (k2.trans b1)] at m1
  refine ⟨_, ?_, k1, k2, ?_⟩
  · rw [abs_sub_comm]; exact m2.trans hd
  · rw [abs_sub_comm]; exact m1.trans hd

theorem coincident_heights {c i : Nat} (hco : Coincident (close cfg.eps s) t c i) {p q : ℝ × ℝ} (hr : Topo.Runs t i p q) : Topo.Runs t c p q := by
  obtain ⟨a, b, h1, h2, h3, h4⟩ := hr
  exact ⟨a, b, by rw [← hco.start]; exact h1, by rw [← hco.stop]; exact h2, h3, h4⟩

theorem coincident_same_side (ha : Arena s tags) (he : 0 < cfg.eps) (hV : (env cfg s).Valid (contribution single tags) fuel2)
    (h : sweep cfg single s tags fuel2 fuel = some t) {x z : ℝ}
    (hx : ∀ a < s.len, (segAt s a).start.y ≤ z → z < (segAt s a).stop.y → Clear cfg.eps s x z a) {c i : Nat} (hi : i < t.n)
    (hco : Coincident (close cfg.eps s) t c i) : LeftAt s t x z c ↔ LeftAt s t x z i := by
  have hc : c < t.n := ((Sweep.C61_winding hV h).2.2 i hi).1 c hco.west |>.trans hi
  obtain ⟨p, q, hr, hne, hcl⟩ := hco.close
  have hrc := coincident_heights hco hr
  have ru : ∀ {j p' q'}, Topo.Runs t j p q → Topo.Runs t j p' q' → p' = p ∧ q' = q := by
    rintro j p' q' ⟨a, b, h1, h2, h3, h4⟩ h5
    obtain ⟨e1, e2⟩ := Merge.runs_iff h1 h2 h3 h4 h5
    exact ⟨e1, e2⟩
  have halive : Scan.AliveAt t c z ↔ Scan.AliveAt t i z := by
    constructor
    · rintro ⟨_, p', q', h1, h2, h3⟩
      obtain ⟨rfl, rfl⟩ := ru hrc h1
      exact ⟨hi, _, _, hr, h2, h3⟩
    · rintro ⟨_, p', q', h1, h2, h3⟩
      obtain ⟨rfl, rfl⟩ := ru hr h1
      exact ⟨hc, _, _, hrc, h2, h3⟩
  unfold LeftAt
  rw [halive]
  refine and_congr_right fun hal => ?_
  obtain ⟨_, p', q', h1, hz0, hz1⟩ := hal
  obtain ⟨rfl, rfl⟩ := ru hr h1
  obtain ⟨i0, i1, _⟩ := runs_within hV h hi hr
  obtain ⟨c0, c1, _⟩ := runs_within hV h hc hrc
  have hlt := hz0.trans_lt hz1
  have down : ∀ j < t.n, (segAt s (t.origSeg j)).start.y < (segAt s (t.origSeg j)).stop.y → t.origSeg j < s.len ∧ (segAt s (t.origSeg j)).Down := by
    intro j hj hs
    have hm := (mem_segs (cfg := cfg) ha _).1 ((Sweep.C61_rings hV h).1 j hj)
    refine ⟨hm, ha.down (cfg := cfg) hm ?_⟩
    unfold Sweep.Env.isHorizontal
    rw [decide_eq_false_iff_not]
    exact hs.ne
  obtain ⟨li, di⟩ := down i hi (by linarith)
  obtain ⟨lc, dc⟩ := down c hc (by linarith)
  obtain ⟨y, y1, y2, y3, y4⟩ := close_near he.le hcl di dc i0 i1 c0 c1 hz0 hz1.le
  have hzz : |z - z| ≤ cfg.eps := by simpa using he.le
  rw [abs_le] at y4
  rcases hx _ lc (by linarith) (by linarith) with k1 | k1
  · have k2 := k1 z hzz (by linarith) (by linarith)
    have k3 := k1 y y1 (by linarith) (by linarith)
    rcases hx _ li (by linarith) (by linarith) with k4 | k4
    · have k5 := k4 z hzz (by linarith) (by linarith)
      constructor <;> intro <;> linarith
    · have k5 := k4 z hzz (by linarith) (by linarith)
      exfalso; linarith
  · have k2 := k1 z hzz (by linarith) (by linarith)
    have k3 := k1 y y1 (by linarith) (by linarith)
    rcases hx _ li (by linarith) (by linarith) with k4 | k4
    · have k5 := k4 z hzz (by linarith) (by linarith)
      exfalso; linarith
    · have k5 := k4 z hzz (by linarith) (by linarith)
      constructor <;> intro <;> linarith

/-! ## The winding number of the contours -/

/-- The winding number of the contours around the point `(x, z)`: those of their segments that cross the height `z` to the left of the point, counted with the
direction in which they are traversed. -/
noncomputable def windContours (s : Segments ℝ) (t : Topo.Topo ℝ W) (cs : List Contours.Contour) (x z : ℝ) : Int := signedCount cs (LeftAt s t x z)

theorem result_winding (ha : Arena s tags) (he : 0 < cfg.eps) (hV : (env cfg s).Valid (contribution single tags) fuel2)
    (h : sweep cfg single s tags fuel2 fuel = some t) (hadj : EndAdjacent (close cfg.eps s) t) (hm : mergeCoincident (close cfg.eps s) t = some t')
    (inside : W → Bool) (h0 : inside 0 = false) {fuel3 : Nat} {cs : List Contours.Contour} (hcs : Contours.contours t' inside fuel3 = some cs) {x z : ℝ} {w : W}
    (hx : ∀ a < s.len, (segAt s a).start.y ≤ z → z < (segAt s a).stop.y → Clear cfg.eps s x z a) {m : Scan.Maps ℝ} {l1 l2 : List Nat}
    (hg : GapAt s t m x z w l1 l2) : windContours s t' cs x z = if inside w then 1 else 0 := by
  obtain ⟨H, hr, _⟩ := Sweep.driver_run hV h
  have hcons := Merge.C26_consistent hV.neg hr hadj hm
  obtain ⟨t2, e2, hn, hpts, hpi, horig, hscan, _⟩ := Sweep.C61_merge hV h (close cfg.eps s)
  obtain rfl : t2 = t' := by rw [hm] at e2; simpa using e2.symm
  have hl : ∀ i, LeftAt s t2 x z i ↔ LeftAt s t x z i := by
    intro i
    unfold LeftAt Scan.AliveAt Topo.Runs
    rw [hn, hpts, hpi, horig]
  have hl' : LeftAt s t2 x z = LeftAt s t x z := by funext i; exact propext (hl i)
  have hperm := Contours.C27_partition t2 inside hcons fuel3 cs hcs
  unfold windContours
  rw [hl', signedCount_eq hperm (fun C hC x hx => Contours.C51_left t2 inside hcons fuel3 cs hcs C hC x hx), hn,
    merged_total hV.neg hr hadj hm (LeftAt s t x z) ?_ ?_ (ind inside), gap_total hg (ind inside)]
  · simp [ind, h0]
  · rintro i hi ⟨⟨_, p, q, h1, h2, h3⟩, _⟩ ⟨p', q', h4, h5⟩
    obtain ⟨a, b, k1, k2, k3, k4⟩ := h1
    obtain ⟨rfl, rfl⟩ := Merge.runs_iff k1 k2 k3 k4 h4
    rw [h5] at h2
    exact absurd h2 (not_le.2 h3)
  · intro c i hi hco
    exact coincident_same_side ha he hV h hx hi hco

end Verif.Full
