import Verif.Full.Planar
import Verif.Geom.Straight

/-!
# Straight segments: when are they told apart?

A sufficient condition on the geometry alone for `Resolved`: two straight segments of moderate slope are told apart if near some height they are further apart than
three halves of the tolerance.
-/

namespace Verif.Full
open Verif.Segs (Segments)
open Verif.Curve
set_option linter.unusedSectionVars false

/-- The segment is a straight line going down. -/
def Line (g : Geom.Seg) : Prop := ∃ p q : Geom.Pt, g = .line p q ∧ p.y < q.y

/-- How far a segment moves to the right per unit of height. -/
noncomputable def slope (g : Geom.Seg) : ℝ := (g.stop.x - g.start.x) / (g.stop.y - g.start.y)

/-- The coordinates and the slope are not astronomically large compared with the tolerance. -/
def Moderate (eps : ℝ) (g : Geom.Seg) : Prop :=
  |g.start.x| ≤ 10 ^ 11 * eps ∧ |g.stop.x| ≤ 10 ^ 11 * eps ∧ |slope g| * max (eps / 2) 1 ≤ 10 ^ 11 * eps

/-- One of the segments is not flat, or they lean to different sides. -/
def Upright (a b : Geom.Seg) : Prop := |slope a| < 16 ∨ |slope b| < 16 ∨ ¬ (0 < slope a ↔ 0 < slope b)

/-- The part of `a` not more than `eps` above or below the height `y` is more than `3/2 eps` to the left of that part of `b`. -/
def Far (eps : ℝ) (a b : Geom.Seg) (y : ℝ) : Prop :=
  ∀ y0 y1, a.start.y ≤ y0 → y0 ≤ a.stop.y → b.start.y ≤ y1 → y1 ≤ b.stop.y → |y0 - y| ≤ eps → |y1 - y| ≤ eps → a.atY y0 + 3 / 2 * eps < b.atY y1

/-- Near some height that they have in common, `a` is clearly to the left of `b`. -/
def Separated (eps : ℝ) (a b : Geom.Seg) : Prop :=
  (∃ y, max a.start.y b.start.y < y ∧ y ≤ min a.stop.y b.stop.y ∧ Far eps a b y) ∨
  (max a.start.y b.start.y = min a.stop.y b.stop.y ∧ a.atY (max a.start.y b.start.y) + eps < b.atY (max a.start.y b.start.y))

theorem Line.down {g : Geom.Seg} (h : Line g) : g.Down := by
  obtain ⟨p, q, rfl, h⟩ := h; exact h

theorem Line.straight {g : Geom.Seg} (h : Line g) : g.toCubic.Straight (g.start.x - slope g * g.start.y) (slope g) := by
  obtain ⟨p, q, rfl, h⟩ := h
  have hd : q.y - p.y ≠ 0 := by linarith
  have e : slope (.line p q) * (q.y - p.y) = q.x - p.x := by
    simp only [slope, Geom.Seg.start, Geom.Seg.stop]; field_simp
  refine ⟨?_, ?_, ?_, ?_⟩ <;> simp only [Geom.Seg.toCubic, Geom.Seg.start] <;> linarith

theorem Line.bound {g : Geom.Seg} (h : Line g) {B : ℝ} (h0 : |g.start.x| ≤ B) (h1 : |g.stop.x| ≤ B) (x t : ℝ) (ha : g.toCubic.At x t) : |x| ≤ B := by
  obtain ⟨k0, k1, rfl⟩ := (toCubic_at_iff h.down).1 ha
  obtain ⟨-, k2, k3⟩ := Geom.C42_at_y g h.down t k0 k1
  obtain ⟨p, q, rfl, h⟩ := h
  simp only [Geom.Seg.start, Geom.Seg.stop, Geom.Seg.minX, Geom.Seg.maxX] at h0 h1 k2 k3
  rw [abs_le] at h0 h1 ⊢
  exact ⟨(le_min h0.1 h1.1).trans k2, k3.trans (max_le h0.2 h1.2)⟩

/-- A definite piece and no piece that says the opposite. -/
theorem orderAfter_definite {c : CurveOrder ℝ} {y E : ℝ} {o : Order} (ho : o ≠ .ish) (hE : EndsAt c E) (hwf : WF c) (hy : c.start < y) (hyE : y ≤ E)
    (h : c.orderAt y = some o) (hall : ∀ p ∈ c.iter, p.order ≠ .ish → p.order = o) : c.orderAfter c.start = some o := by
  obtain ⟨p, hp, h1, h2, h3⟩ := (C08_order_at c hwf y hy o).1 h
  obtain ⟨l, l1, l2⟩ := hE
  unfold CurveOrder.orderAfter
  rw [l1]
  dsimp only
  rw [if_neg (by rw [l2]; exact (hy.trans_le hyE).ne)]
  congr 1
  have hmem : p ∈ c.iter.dropWhile (fun p => p.hi ≤ c.start) := by
    have := List.takeWhile_append_dropWhile (p := fun p : Piece ℝ => decide (p.hi ≤ c.start)) (l := c.iter)
    rw [← this, List.mem_append] at hp
    rcases hp with hp | hp
    · have := List.mem_takeWhile_imp hp
      simp only [decide_eq_true_eq] at this
      linarith
    · exact hp
  split
  · next hf =>
    rw [List.find?_eq_none] at hf
    have := hf p hmem
    rw [h3] at this
    simp [ho] at this
  · next p' hf =>
    have e1 := List.find?_some hf
    simp only [ne_eq, decide_not, Bool.not_eq_eq_eq_not, Bool.not_true, decide_eq_false_iff_not] at e1
    exact hall p' ((List.dropWhile_sublist _).subset (List.mem_of_find?_eq_some hf)) e1

variable {solve : ℝ → ℝ → ℝ → ℝ → List ℝ} {eps : ℝ}

/-- What `intersect_cubics` says of two straight lines. -/
theorem lines_out (hsolve : Geom.FindsRoots solve) (he : 0 < eps) {a b : Geom.Seg} (ha : Line a) (hb : Line b) (ma : Moderate eps a) (mb : Moderate eps b)
    (hU : Upright a b) (hov : max a.start.y b.start.y ≤ min a.stop.y b.stop.y) :
    ∃ out, Ends solve eps (eps / 2) a.toCubic b.toCubic out ∧ WF out ∧ out.start = max a.start.y b.start.y ∧ EndsAt out (min a.stop.y b.stop.y) ∧
      ∀ p ∈ out.iter, ∀ t, max a.start.y b.start.y ≤ t → t ≤ min a.stop.y b.stop.y → p.lo ≤ t → t ≤ p.hi →
        (p.order = .left → a.atY t + eps ≤ b.atY t) ∧ (p.order = .right → b.atY t + eps ≤ a.atY t) ∧
        (p.order = .ish → ∀ y, max a.start.y b.start.y ≤ y → y ≤ min a.stop.y b.stop.y → |t - y| ≤ eps →
          ∃ y0 y1, (a.start.y ≤ y0 ∧ y0 ≤ a.stop.y) ∧ (b.start.y ≤ y1 ∧ y1 ≤ b.stop.y) ∧ |y0 - y| ≤ eps ∧ |y1 - y| ≤ eps ∧
            |b.atY y1 - a.atY y0| ≤ 3 / 2 * eps) := by
  have ea0 : a.toCubic.p0 = a.start := (Geom.C42_to_cubic a).2.1
  have ea3 : a.toCubic.p3 = a.stop := (Geom.C42_to_cubic a).2.2
  have eb0 : b.toCubic.p0 = b.start := (Geom.C42_to_cubic b).2.1
  have eb3 : b.toCubic.p3 = b.stop := (Geom.C42_to_cubic b).2.2
  have steep : ∀ {g : Geom.Seg}, Moderate eps g → |slope g| ≤ 2 * (10 ^ 11 * eps) := by
    intro g hg
    have := (le_mul_of_one_le_right (abs_nonneg (slope g)) (le_max_right (eps / 2) 1)).trans hg.2.2
    linarith
  obtain ⟨N, out, h1, h2, h3, h4, h5⟩ := Geom.C68_lines solve hsolve eps (eps / 2) (by linarith) (by linarith) a.toCubic b.toCubic (toCubic_mono ha.down)
    (toCubic_mono hb.down) _ _ _ _ ha.straight hb.straight hU (10 ^ 11 * eps) (by ring_nf; linarith) (ha.bound ma.1 ma.2.1) (hb.bound mb.1 mb.2.1) (steep ma) (steep mb)
    (by rw [ea0, ea3, eb0, eb3]; exact hov)
  rw [ea0, eb0] at h3
  rw [ea3, eb3] at h4
  refine ⟨out, ⟨N, h1⟩, h2, h3, h4, fun p hp t t0 t1 k0 k1 => ?_⟩
  obtain ⟨q1, q2, q3⟩ := h5 p hp t _ _ k0 k1 (toCubic_at ha.down ((le_max_left _ _).trans t0) (t1.trans (min_le_left _ _)))
    (toCubic_at hb.down ((le_max_right _ _).trans t0) (t1.trans (min_le_right _ _)))
  refine ⟨q1, q2, fun ho y g1 g2 g3 => ?_⟩
  rcases q3 ho with c | ⟨c0, x0, y0, x1, y1, c1, c2, c3, c4, c5⟩
  · exact ⟨t, t, ⟨(le_max_left _ _).trans t0, t1.trans (min_le_left _ _)⟩, ⟨(le_max_right _ _).trans t0, t1.trans (min_le_right _ _)⟩, g3, g3, by linarith⟩
  · obtain ⟨u1, u2, rfl⟩ := (toCubic_at_iff ha.down).1 c1
    obtain ⟨v1, v2, rfl⟩ := (toCubic_at_iff hb.down).1 c2
    rw [ea0, eb0, ea3, eb3] at c0
    rw [ea0, ea3] at c3
    rw [eb0, eb3] at c4
    have near : ∀ {u}, a.start.y ≤ u → b.start.y ≤ u → u ≤ a.stop.y → u ≤ b.stop.y → |u - y| ≤ eps := by
      intro u m1 m2 m3 m4
      have := max_le m1 m2
      have := le_min m3 m4
      rw [abs_le]; constructor <;> linarith
    exact ⟨y0, y1, ⟨u1, u2⟩, ⟨v1, v2⟩, near u1 c4.1 u2 c4.2, near c3.1 v1 c3.2 v2, by linarith⟩

/-- Two segments with a single common height. -/
theorem touch_out {tol acc : ℝ} {a b : Geom.Seg} (ha : a.Down) (hb : b.Down) (heq : max a.start.y b.start.y = min a.stop.y b.stop.y) {out : CurveOrder ℝ}
    (h : Ends solve tol acc a.toCubic b.toCubic out) :
    out = ⟨max a.start.y b.start.y, [⟨min a.stop.y b.stop.y, Geom.tolOrder (a.atY (max a.start.y b.start.y)) (b.atY (max a.start.y b.start.y)) tol⟩]⟩ := by
  obtain ⟨N, h⟩ := h
  have ha' := (toCubic_mono ha).1
  have hb' := (toCubic_mono hb).1
  have h := h N le_rfl
  unfold Geom.intersectCubics at h
  dsimp only at h
  rw [(Geom.C42_to_cubic a).2.1, (Geom.C42_to_cubic a).2.2] at h ha'
  rw [(Geom.C42_to_cubic b).2.1, (Geom.C42_to_cubic b).2.2] at h hb'
  rw [if_neg (by linarith), if_pos heq] at h
  simp only [CurveOrder.push, CurveOrder.new, List.getLast?_nil, Option.some.injEq] at h
  rw [← h]
  obtain ⟨a1, a2⟩ := Geom.C42_ends a ha
  obtain ⟨b1, b2⟩ := Geom.C42_ends b hb
  by_cases hc : a.start.y = b.stop.y
  · rw [if_pos hc]
    have e : max a.start.y b.start.y = a.start.y := max_eq_left (by linarith)
    rw [e, a1, hc, b2]
  · rw [if_neg hc]
    have e : max a.start.y b.start.y = b.start.y ∧ b.start.y = a.stop.y := by
      rcases max_choice a.start.y b.start.y with k | k <;> rcases min_choice a.stop.y b.stop.y with k' | k' <;> rw [k, k'] at heq
      · linarith
      · exact absurd heq hc
      · exact ⟨k, heq⟩
      · linarith
    rw [e.1, b1, e.2, a2]

/-- Both directions of the comparison tell separated straight lines apart. -/
theorem lines_resolved (hsolve : Geom.FindsRoots solve) (he : 0 < eps) {a b : Geom.Seg} (ha : Line a) (hb : Line b) (ma : Moderate eps a) (mb : Moderate eps b)
    (hU : Upright a b) (hS : Separated eps a b) (hn : ¬ LeftOf b a) :
    (compareNew solve eps (eps / 2) eps a b).orderAfter (max a.start.y b.start.y) = some .left ∧
    (compareNew solve eps (eps / 2) eps b a).orderAfter (max a.start.y b.start.y) = some .right := by
  have hov : max a.start.y b.start.y ≤ min a.stop.y b.stop.y := by
    rcases hS with ⟨y, h1, h2, _⟩ | ⟨h, _⟩
    · linarith
    · exact h.le
  have hU' : Upright b a := by
    rcases hU with h | h | h
    · exact Or.inr (Or.inl h)
    · exact Or.inl h
    · exact Or.inr (Or.inr fun h' => h h'.symm)
  have hov' : max b.start.y a.start.y ≤ min b.stop.y a.stop.y := by rw [max_comm, min_comm]; exact hov
  obtain ⟨out, o1, o2, o3, o4, o5⟩ := lines_out hsolve he ha hb ma mb hU hov
  obtain ⟨out', o1', o2', o3', o4', o5'⟩ := lines_out hsolve he hb ha mb ma hU' hov'
  obtain ⟨w, w1, -, -, -, -, w6, w7⟩ := compareNew_spec hsolve (by linarith : 0 < eps / 2) (by linarith : eps / 2 ≤ eps) he ha.down hb.down hov
  obtain ⟨w', w1', -, -, -, -, w6', w7'⟩ := compareNew_spec hsolve (by linarith : 0 < eps / 2) (by linarith : eps / 2 ≤ eps) he hb.down ha.down hov'
  obtain rfl := w1.unique o1
  obtain rfl := w1'.unique o1'
  have hs1 : (compareNew solve eps (eps / 2) eps a b).start = max a.start.y b.start.y := w7.start
  have hs2 : (compareNew solve eps (eps / 2) eps b a).start = max a.start.y b.start.y := by rw [w7'.start, max_comm]
  -- no piece says the opposite
  have no1 : ∀ p ∈ (compareNew solve eps (eps / 2) eps a b).iter, p.order ≠ .ish → p.order = .left := by
    intro p hp ho
    cases h : p.order with
    | left => rfl
    | ish => exact absurd h ho
    | right =>
      exfalso
      have h1 := w7.wf.2.lo_le p hp
      have h2 := wf_hi_le w7.wf w7.stop p hp
      rw [hs1] at h1
      have h3 := h1.2.trans h2
      exact hn ⟨p.lo, ⟨(le_max_right _ _).trans h1.1, h3.trans (min_le_right _ _)⟩, ⟨(le_max_left _ _).trans h1.1, h3.trans (min_le_left _ _)⟩,
        (w7.right p hp p.lo le_rfl h1.2).2 h⟩
  have no2 : ∀ p ∈ (compareNew solve eps (eps / 2) eps b a).iter, p.order ≠ .ish → p.order = .right := by
    intro p hp ho
    cases h : p.order with
    | right => rfl
    | ish => exact absurd h ho
    | left =>
      exfalso
      have h1 := w7'.wf.2.lo_le p hp
      have h2 := wf_hi_le w7'.wf w7'.stop p hp
      rw [hs2] at h1
      have h3 := h1.2.trans h2
      exact hn ⟨p.lo, ⟨(le_max_right _ _).trans h1.1, h3.trans (min_le_left _ _)⟩, ⟨(le_max_left _ _).trans h1.1, h3.trans (min_le_right _ _)⟩,
        (w7'.right p hp p.lo le_rfl h1.2).1 h⟩
  rcases hS with ⟨y, hy1, hy2, hF⟩ | ⟨heq, hlt⟩
  · have hdown : ∀ x : ℝ, (fun x => x - eps) x ≤ x := fun x => by dsimp only; linarith
    have hup : ∀ x : ℝ, x ≤ (fun x => x + eps) x := fun x => by dsimp only; linarith
    have mdown : ∀ x y : ℝ, x ≤ y → (fun x => x - eps) x ≤ (fun x => x - eps) y := fun x y h => by dsimp only; linarith
    have mup : ∀ x y : ℝ, x ≤ y → (fun x => x + eps) x ≤ (fun x => x + eps) y := fun x y h => by dsimp only; linarith
    -- a height of the piece near `y`
    have near : ∀ p : Piece ℝ, max a.start.y b.start.y ≤ p.lo → p.lo ≤ p.hi → p.hi ≤ min a.stop.y b.stop.y → y ≤ p.hi + eps → p.lo - eps < y →
        ∃ t, max a.start.y b.start.y ≤ t ∧ t ≤ min a.stop.y b.stop.y ∧ p.lo ≤ t ∧ t ≤ p.hi ∧ |t - y| ≤ eps := by
      intro p l1 l2 l3 l4 l5
      rcases le_total y p.lo with h | h
      · exact ⟨p.lo, l1, l2.trans l3, le_rfl, l2, by rw [abs_of_nonneg (by linarith)]; linarith⟩
      rcases le_total p.hi y with h' | h'
      · exact ⟨p.hi, l1.trans l2, l3, l2, le_rfl, by rw [abs_of_nonpos (by linarith)]; linarith⟩
      · exact ⟨y, hy1.le, hy2, h, h', by simp [he.le]⟩
    constructor
    · obtain ⟨c', k1, k2⟩ := C10_slop_meaning (fun x => x - eps) (fun x => x + eps) hdown hup mdown mup w o2 _ o4 y (by rw [o3]; exact hy1) hy2 .left (by simp)
      have e : c' = compareNew solve eps (eps / 2) eps a b := by rw [w6] at k1; exact (Option.some.inj k1).symm
      subst e
      rw [← hs1]
      refine orderAfter_definite (by simp) w7.stop w7.wf (by rw [hs1]; exact hy1) hy2 (k2.2 ?_) no1
      intro p hp _ _ g3 g4
      have h1 := o2.2.lo_le p hp
      have h2 := wf_hi_le o2 o4 p hp
      rw [o3] at h1
      obtain ⟨t, t1, t2, t3, t4, t5⟩ := near p h1.1 h1.2 h2 g3 g4
      obtain ⟨q1, q2, q3⟩ := o5 p hp t t1 t2 t3 t4
      cases h : p.order with
      | left => rfl
      | right =>
        exfalso
        have := hF t t ((le_max_left _ _).trans t1) (t2.trans (min_le_left _ _)) ((le_max_right _ _).trans t1) (t2.trans (min_le_right _ _)) t5 t5
        have := q2 h
        linarith
      | ish =>
        exfalso
        obtain ⟨y0, y1, c1, c2, c3, c4, c5⟩ := q3 h y hy1.le hy2 t5
        have := hF y0 y1 c1.1 c1.2 c2.1 c2.2 c3 c4
        have := (abs_le.1 c5).2
        linarith
    · obtain ⟨c', k1, k2⟩ := C10_slop_meaning (fun x => x - eps) (fun x => x + eps) hdown hup mdown mup w' o2' _ o4' y (by rw [o3', max_comm]; exact hy1)
        (by rw [min_comm]; exact hy2) .right (by simp)
      have e : c' = compareNew solve eps (eps / 2) eps b a := by rw [w6'] at k1; exact (Option.some.inj k1).symm
      subst e
      rw [← hs2]
      refine orderAfter_definite (by simp) w7'.stop w7'.wf (by rw [hs2]; exact hy1) (by rw [min_comm]; exact hy2) (k2.2 ?_) no2
      intro p hp _ _ g3 g4
      have h1 := o2'.2.lo_le p hp
      have h2 := wf_hi_le o2' o4' p hp
      rw [o3', max_comm] at h1
      rw [min_comm] at h2
      obtain ⟨t, t1, t2, t3, t4, t5⟩ := near p h1.1 h1.2 h2 g3 g4
      obtain ⟨q1, q2, q3⟩ := o5' p hp t (by rw [max_comm]; exact t1) (by rw [min_comm]; exact t2) t3 t4
      cases h : p.order with
      | right => rfl
      | left =>
        exfalso
        have := hF t t ((le_max_left _ _).trans t1) (t2.trans (min_le_left _ _)) ((le_max_right _ _).trans t1) (t2.trans (min_le_right _ _)) t5 t5
        have := q1 h
        linarith
      | ish =>
        exfalso
        obtain ⟨y0, y1, c1, c2, c3, c4, c5⟩ := q3 h y (by rw [max_comm]; exact hy1.le) (by rw [min_comm]; exact hy2) t5
        have := hF y1 y0 c2.1 c2.2 c1.1 c1.2 c4 c3
        have := (abs_le.1 c5).1
        linarith
  · have one : ∀ {c : CurveOrder ℝ} {y : ℝ} {o : Order}, c.withYSlop false (· - eps) (· + eps) = some (compareNew solve eps (eps / 2) eps a b) ∨
        c.withYSlop false (· - eps) (· + eps) = some (compareNew solve eps (eps / 2) eps b a) → c = ⟨y, [⟨y, o⟩]⟩ →
        c.withYSlop false (· - eps) (· + eps) = some c ∧ c.orderAfter y = some o := by
      rintro c y o - rfl
      simp [CurveOrder.withYSlop, CurveOrder.orderAfter]
    have e1 := touch_out ha.down hb.down heq o1
    have e2 := touch_out hb.down ha.down (by rw [max_comm, min_comm]; exact heq) o1'
    rw [← heq] at e1
    rw [max_comm, min_comm, ← heq] at e2
    obtain ⟨k1, k2⟩ := one (Or.inl w6) e1
    obtain ⟨k1', k2'⟩ := one (Or.inr w6') e2
    rw [w6] at k1
    rw [w6'] at k1'
    rw [Option.some.inj k1, Option.some.inj k1', k2, k2']
    unfold Geom.tolOrder
    rw [if_pos (by linarith), if_neg (by linarith), if_pos (by linarith)]
    exact ⟨rfl, rfl⟩

variable {T : Type} {s : Segments ℝ} {tags : List T} {cfg : Cfg}

/-- All segments that are not horizontal are straight lines, moderate and pairwise upright, and any two of which one is somewhere to the left of the other are clearly
separated somewhere. -/
structure Apart (eps : ℝ) (s : Segments ℝ) : Prop where
  line : ∀ i, Slanted s i → Line (segAt s i)
  moderate : ∀ i, Slanted s i → Moderate eps (segAt s i)
  upright : ∀ i j, Slanted s i → Slanted s j → Upright (segAt s i) (segAt s j)
  separated : ∀ i j, Slanted s i → Slanted s j → LeftOf (segAt s i) (segAt s j) → Separated eps (segAt s i) (segAt s j)

/-- Straight segments that do not cross and are separated are told apart by the comparisons. -/
theorem resolved_of_apart (he : 0 < cfg.eps) (hsolve : Geom.FindsRoots cfg.solve) (hN : NoCross s) (hA : Apart cfg.eps s) : Resolved cfg s := by
  intro i j hi hj hl
  obtain ⟨h1, h2⟩ := lines_resolved hsolve he (hA.line i hi) (hA.line j hj) (hA.moderate i hi) (hA.moderate j hj) (hA.upright i j hi hj)
    (hA.separated i j hi hj hl) (hN i j hi hj hl)
  constructor
  · change (compare cfg.solve cfg.eps (cfg.eps / 2) cfg.eps cfg.first (segAt s) i j).orderAfter _ = _
    unfold compare
    split
    · exact h1
    · rw [C09_flip_order_after, h2]; rfl
  · change (compare cfg.solve cfg.eps (cfg.eps / 2) cfg.eps cfg.first (segAt s) j i).orderAfter _ = _
    unfold compare
    split
    · exact h2
    · rw [C09_flip_order_after, h1]; rfl

end Verif.Full
