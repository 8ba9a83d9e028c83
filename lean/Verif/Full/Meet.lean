import Verif.Full.Lines
import Verif.Full.Total
import Verif.Sweep.GenericMain

/-!
# Straight segments: where are they not told apart?

Near every height at which the comparison does not tell two straight segments apart they meet, up to the tolerance.
-/

namespace Verif.Full
open Verif.Segs (Segments)
open Verif.Curve
set_option linter.unusedSectionVars false

/-- Not more than `eps` above or below the height `t` there are points of the segments `a` and `b` that are horizontally not more than `3/2 eps` apart. -/
def Meet (eps t : ℝ) (a b : Geom.Seg) : Prop :=
  ∃ y0 y1, (a.start.y ≤ y0 ∧ y0 ≤ a.stop.y) ∧ (b.start.y ≤ y1 ∧ y1 ≤ b.stop.y) ∧ |y0 - t| ≤ eps ∧ |y1 - t| ≤ eps ∧ |b.atY y1 - a.atY y0| ≤ 3 / 2 * eps

theorem Meet.symm {eps t : ℝ} {a b : Geom.Seg} (h : Meet eps t a b) : Meet eps t b a := by
  obtain ⟨y0, y1, h1, h2, h3, h4, h5⟩ := h
  exact ⟨y1, y0, h2, h1, h4, h3, by rw [abs_sub_comm]; exact h5⟩

theorem Line.atY_eq {g : Geom.Seg} (h : Line g) (y : ℝ) : g.atY y = g.start.x + slope g * (y - g.start.y) := by
  obtain ⟨p, q, rfl, h⟩ := h
  rw [Geom.Seg.atY_line h]
  have hd : q.y - p.y ≠ 0 := by linarith
  simp only [slope, Geom.Seg.start, Geom.Seg.stop]
  field_simp

theorem Line.continuous {g : Geom.Seg} (h : Line g) : Continuous g.atY := by
  have : g.atY = fun y => g.start.x + slope g * (y - g.start.y) := funext h.atY_eq
  rw [this]
  fun_prop

/-- The heights at which two lines meet are a closed set. -/
theorem meet_closed {eps : ℝ} {a b : Geom.Seg} (ha : Line a) (hb : Line b) : IsClosed {t | Meet eps t a b} := by
  obtain ⟨S, hS⟩ : ∃ S : Set (ℝ × ℝ × ℝ), S = {p | p.2.1 ∈ Set.Icc a.start.y a.stop.y ∧ p.2.2 ∈ Set.Icc b.start.y b.stop.y ∧ |p.2.1 - p.1| ≤ eps ∧
      |p.2.2 - p.1| ≤ eps ∧ |b.atY p.2.2 - a.atY p.2.1| ≤ 3 / 2 * eps} := ⟨_, rfl⟩
  have e : {t | Meet eps t a b} = Prod.fst '' S := by
    rw [hS]
    ext t
    constructor
    · rintro ⟨y0, y1, h⟩
      exact ⟨(t, y0, y1), h, rfl⟩
    · rintro ⟨⟨_, y0, y1⟩, h, rfl⟩
      exact ⟨y0, y1, h⟩
  have hc : IsClosed S := by
    have c1 := ha.continuous
    have c2 := hb.continuous
    rw [hS]
    have k1 : IsClosed {p : ℝ × ℝ × ℝ | |p.2.1 - p.1| ≤ eps} := isClosed_le (by fun_prop) (by fun_prop)
    have k2 : IsClosed {p : ℝ × ℝ × ℝ | |p.2.2 - p.1| ≤ eps} := isClosed_le (by fun_prop) (by fun_prop)
    have k3 : IsClosed {p : ℝ × ℝ × ℝ | |b.atY p.2.2 - a.atY p.2.1| ≤ 3 / 2 * eps} := isClosed_le (by fun_prop) (by fun_prop)
    have k4 : IsClosed {p : ℝ × ℝ × ℝ | p.2.1 ∈ Set.Icc a.start.y a.stop.y} := isClosed_Icc.preimage (by fun_prop)
    have k5 : IsClosed {p : ℝ × ℝ × ℝ | p.2.2 ∈ Set.Icc b.start.y b.stop.y} := isClosed_Icc.preimage (by fun_prop)
    exact k4.inter (k5.inter (k1.inter (k2.inter k3)))
  have hk : IsCompact S := by
    have hb : IsCompact (Set.Icc (a.start.y - eps) (a.stop.y + eps) ×ˢ Set.Icc a.start.y a.stop.y ×ˢ Set.Icc b.start.y b.stop.y) :=
      isCompact_Icc.prod (isCompact_Icc.prod isCompact_Icc)
    refine IsCompact.of_isClosed_subset hb hc ?_
    rintro ⟨t, y0, y1⟩ h
    rw [hS] at h
    obtain ⟨h1, h2, h3, -, -⟩ := h
    dsimp only at h1 h2 h3
    rw [abs_le] at h3
    exact ⟨⟨by dsimp only; linarith [h1.1], by dsimp only; linarith [h1.2]⟩, h1, h2⟩
  rw [e]
  exact (hk.image continuous_fst).isClosed

/-- Between two heights at which two lines are ordered differently they meet. -/
theorem lines_cross {a b : Geom.Seg} (ha : Line a) (hb : Line b) {u v : ℝ} (h1 : a.atY u ≤ b.atY u) (h2 : b.atY v ≤ a.atY v) :
    ∃ w, min u v ≤ w ∧ w ≤ max u v ∧ a.atY w = b.atY w := by
  have hc : ContinuousOn (fun y => a.atY y - b.atY y) (Set.uIcc u v) := (ha.continuous.sub hb.continuous).continuousOn
  have := intermediate_value_uIcc hc
  have h0 : (0 : ℝ) ∈ Set.uIcc (a.atY u - b.atY u) (a.atY v - b.atY v) := by
    rw [Set.mem_uIcc]; left; constructor <;> linarith
  obtain ⟨w, hw, e⟩ := this h0
  exact ⟨w, hw.1, hw.2, by simpa [sub_eq_zero] using e⟩

/-- A line reaches every position between two of its positions. -/
theorem line_reaches {a : Geom.Seg} (ha : Line a) {u v x : ℝ} (h1 : a.atY u ≤ x) (h2 : x ≤ a.atY v) : ∃ w, min u v ≤ w ∧ w ≤ max u v ∧ a.atY w = x := by
  have := intermediate_value_uIcc (f := a.atY) (a := u) (b := v) ha.continuous.continuousOn
  obtain ⟨w, hw, e⟩ := this (show x ∈ Set.uIcc (a.atY u) (a.atY v) by rw [Set.mem_uIcc]; left; exact ⟨h1, h2⟩)
  exact ⟨w, hw.1, hw.2, e⟩

/-! ## Undetermined pieces have a height -/

section
variable {K : Type} [LinearOrder K]

theorem slopLoop_strict (down up : K → K) (hdown : ∀ x, down x ≤ x) (hup : ∀ x, x < up x) (mup : ∀ x y, x ≤ y → up x ≤ up y) (start E : K) (ps : List (Piece K)) :
    ∀ lo pos : K, Tiled lo ps → pos < up lo → ∀ q ∈ pieces pos (CurveOrder.slopLoop down up start E ps), q.order = .ish → q.lo < q.hi := by
  induction ps with
  | nil => intro lo pos _ _ q hq; simp [CurveOrder.slopLoop, pieces] at hq
  | cons p ps ih =>
    intro lo pos ht hpos q hq ho
    have hlo := ht.head.1
    have hle := ht.head.2
    have ht' : Tiled p.hi ps := by
      cases ps with
      | nil => trivial
      | cons q qs => exact ht.2.2.2
    simp only [CurveOrder.slopLoop] at hq
    obtain ⟨ne, hne⟩ : ∃ ne, ne = if p.hi = E then p.hi else down p.hi := ⟨_, rfl⟩
    obtain ⟨ns, hns⟩ : ∃ ns, ns = if p.lo = start then p.lo else up p.lo := ⟨_, rfl⟩
    have hneh : ne < up p.hi := by
      rw [hne]; split_ifs
      · exact hup _
      · exact (hdown _).trans_lt (hup _)
    rw [← hne, ← hns] at hq
    by_cases hc : p.order ≠ .ish ∧ ns < ne
    · rw [if_pos hc] at hq
      by_cases hs : ns ≠ start
      · rw [if_pos hs] at hq
        simp only [List.singleton_append, List.cons_append, List.nil_append, pieces, List.mem_cons] at hq
        rcases hq with rfl | rfl | hq
        · have : ns = up p.lo := by
            rw [hns] at hs ⊢
            split_ifs at hs ⊢ with h
            · exact absurd h hs
            · rfl
          change pos < ns
          rw [this, hlo]; exact hpos
        · exact absurd ho hc.1
        · exact ih _ _ ht' hneh q hq ho
      · rw [if_neg hs] at hq
        simp only [List.cons_append, List.nil_append, pieces, List.mem_cons] at hq
        rcases hq with rfl | hq
        · exact absurd ho hc.1
        · exact ih _ _ ht' hneh q hq ho
    · rw [if_neg hc, List.nil_append] at hq
      exact ih _ _ ht' (hpos.trans_le (mup _ _ (by rw [← hlo]; exact hle))) q hq ho

/-- The undetermined pieces after widening. -/
theorem slop_strict (down up : K → K) (hdown : ∀ x, down x ≤ x) (hup : ∀ x, x < up x) (mup : ∀ x y, x ≤ y → up x ≤ up y) (c : CurveOrder K) (h : WF c) {E : K}
    (hE : EndsAt c E) (hne : c.start < E) {c' : CurveOrder K} (hc : c.withYSlop false down up = some c') : ∀ q ∈ c'.iter, q.order = .ish → q.lo < q.hi := by
  obtain ⟨c1, k1, k2, k3, k4, -⟩ := withYSlop_main down up hdown (fun x => (hup x).le) c h E hE hne
  rw [hc, Option.some.injEq] at k1
  subst k1
  obtain ⟨l, hl1, hl2⟩ := hE
  have hls := slopLoop_strict down up hdown hup mup c.start E c.iter c.start c.start h.2 (hup _)
  simp only [CurveOrder.withYSlop, hl1, hl2, hne.ne, Bool.false_eq_true, if_false] at hc
  obtain ⟨ret, hret⟩ : ∃ ret, ret = CurveOrder.slopLoop down up c.start E c.iter := ⟨_, rfl⟩
  rw [← hret] at hc hls
  have hc' : (c' = ⟨c.start, ret ++ [⟨E, .ish⟩]⟩ ∧ ∀ l, ret.getLast? = some l → l.stop ≠ E) ∨ c' = ⟨c.start, ret⟩ := by
    cases hg : ret.getLast? with
    | none => rw [hg] at hc; left; exact ⟨by simpa using hc.symm, by simp⟩
    | some l' =>
      rw [hg] at hc
      by_cases he : l'.stop = E
      · right; simpa [he] using hc.symm
      · left; exact ⟨by simpa [he] using hc.symm, by simpa using he⟩
  intro q hq ho
  rcases hc' with ⟨rfl, hlast⟩ | rfl
  · have hle := (k2.2.lo_le q hq).2
    simp only [CurveOrder.iter, pieces_append, List.mem_append] at hq
    rcases hq with hq | hq
    · exact hls q hq ho
    · simp only [pieces, List.mem_singleton] at hq
      subst hq
      refine lt_of_le_of_ne hle ?_
      dsimp only
      cases hg : ret.getLast? with
      | none => simpa using hne.ne
      | some l' => simpa using hlast l' hg
  · exact hls q hq ho

end

/-! ## Where the comparison does not tell -/

/-- Where the comparison of two straight lines says nothing they meet. -/
theorem ish_meet {solve : ℝ → ℝ → ℝ → ℝ → List ℝ} {eps : ℝ} (hsolve : Geom.FindsRoots solve) (he : 0 < eps) {a b : Geom.Seg} (ha : Line a) (hb : Line b)
    (ma : Moderate eps a) (mb : Moderate eps b) (hU : Upright a b) {t : ℝ} (ta : a.start.y ≤ t ∧ t ≤ a.stop.y) (tb : b.start.y ≤ t ∧ t ≤ b.stop.y)
    {q : Piece ℝ} (hq : q ∈ (compareNew solve eps (eps / 2) eps a b).iter) (ho : q.order = .ish) (q1 : q.lo ≤ t) (q2 : t ≤ q.hi) : Meet eps t a b := by
  have hov : max a.start.y b.start.y ≤ min a.stop.y b.stop.y := (max_le ta.1 tb.1).trans (le_min ta.2 tb.2)
  obtain ⟨out, o1, o2, o3, o4, o5⟩ := lines_out hsolve he ha hb ma mb hU hov
  obtain ⟨w, w1, -, -, -, -, w6, w7⟩ := compareNew_spec hsolve (by linarith : 0 < eps / 2) (by linarith : eps / 2 ≤ eps) he ha.down hb.down hov
  obtain rfl := w1.unique o1
  rcases eq_or_lt_of_le hov with heq | hlt
  · have e1 := touch_out ha.down hb.down heq o1
    have ht : t = max a.start.y b.start.y := le_antisymm (by rw [heq]; exact le_min ta.2 tb.2) (max_le ta.1 tb.1)
    have hsame : w.withYSlop false (· - eps) (· + eps) = some w := by
      rw [e1, heq]; simp [CurveOrder.withYSlop]
    rw [w6] at hsame
    rw [Option.some.inj hsame, e1] at hq
    simp only [CurveOrder.iter, pieces, List.mem_singleton] at hq
    rw [hq, ← ht] at ho
    refine ⟨t, t, ta, tb, by simpa using he.le, by simpa using he.le, ?_⟩
    unfold Geom.tolOrder at ho
    split_ifs at ho
    rw [abs_le]; constructor <;> linarith
  · have hdown : ∀ x : ℝ, (fun x => x - eps) x ≤ x := fun x => by dsimp only; linarith
    have hup : ∀ x : ℝ, x < (fun x => x + eps) x := fun x => by dsimp only; linarith
    have mdown : ∀ x y : ℝ, x ≤ y → (fun x => x - eps) x ≤ (fun x => x - eps) y := fun x y h => by dsimp only; linarith
    have mup : ∀ x y : ℝ, x ≤ y → (fun x => x + eps) x ≤ (fun x => x + eps) y := fun x y h => by dsimp only; linarith
    have hst := slop_strict _ _ hdown hup mup w o2 o4 (by rw [o3]; exact hlt) w6 q hq ho
    have hlo := (w7.wf.2.lo_le q hq).1
    have hhi := wf_hi_le w7.wf w7.stop q hq
    rw [w7.start] at hlo
    -- it is enough to look at the heights inside the piece
    suffices hin : ∀ y, q.lo < y → y ≤ q.hi → Meet eps y a b by
      have hcl := (meet_closed (eps := eps) ha hb).closure_subset_iff.2 (show Set.Ioc q.lo q.hi ⊆ _ from fun y hy => hin y hy.1 hy.2)
      rw [closure_Ioc hst.ne] at hcl
      exact hcl ⟨q1, q2⟩
    intro y y1 y2
    have ys : max a.start.y b.start.y < y := lt_of_le_of_lt hlo y1
    have yE : y ≤ min a.stop.y b.stop.y := y2.trans hhi
    have hat : (compareNew solve eps (eps / 2) eps a b).orderAt y = some .ish :=
      (C08_order_at _ w7.wf y (by rw [w7.start]; exact ys) .ish).2 ⟨q, hq, y1, y2, ho⟩
    have find : ∀ o : Order, o ≠ .ish → ∃ p ∈ w.iter, p.order ≠ o ∧ ∃ u, max a.start.y b.start.y ≤ u ∧ u ≤ min a.stop.y b.stop.y ∧ p.lo ≤ u ∧ u ≤ p.hi ∧ |u - y| ≤ eps := by
      intro o hoo
      obtain ⟨c', k1, k2⟩ := C10_slop_meaning (fun x => x - eps) (fun x => x + eps) hdown (fun x => (hup x).le) mdown mup w o2 _ o4 y (by rw [o3]; exact ys) yE o hoo
      have e : c' = compareNew solve eps (eps / 2) eps a b := by rw [w6] at k1; exact (Option.some.inj k1).symm
      subst e
      rw [hat, Option.some.injEq] at k2
      by_contra hn
      push Not at hn
      refine absurd (k2.2 ?_) (fun h => hoo h.symm)
      intro p hp _ _ g3 g4
      by_contra hpo
      have h1 := o2.2.lo_le p hp
      have h2 := wf_hi_le o2 o4 p hp
      rw [o3] at h1
      rcases le_total y p.lo with h | h
      · have := hn p hp hpo p.lo h1.1 (h1.2.trans h2) le_rfl h1.2
        rw [abs_of_nonneg (by linarith)] at this
        linarith
      rcases le_total p.hi y with h' | h'
      · have := hn p hp hpo p.hi (h1.1.trans h1.2) h2 h1.2 le_rfl
        rw [abs_of_nonpos (by linarith)] at this
        linarith
      · have := hn p hp hpo y ys.le yE h h'
        rw [sub_self, abs_zero] at this
        linarith
    obtain ⟨p1, hp1, n1, u1, a1, b1, c1, d1, e1⟩ := find .left (by simp)
    obtain ⟨p2, hp2, n2, u2, a2, b2, c2, d2, e2⟩ := find .right (by simp)
    have viaIsh : ∀ p ∈ w.iter, p.order = .ish → ∀ u, max a.start.y b.start.y ≤ u → u ≤ min a.stop.y b.stop.y → p.lo ≤ u → u ≤ p.hi → |u - y| ≤ eps → Meet eps y a b := by
      intro p hp hpo u k1 k2 k3 k4 k5
      exact (o5 p hp u k1 k2 k3 k4).2.2 hpo y ys.le yE k5
    cases h1 : p1.order with
    | left => exact absurd h1 n1
    | ish => exact viaIsh p1 hp1 h1 u1 a1 b1 c1 d1 e1
    | right =>
      cases h2 : p2.order with
      | right => exact absurd h2 n2
      | ish => exact viaIsh p2 hp2 h2 u2 a2 b2 c2 d2 e2
      | left =>
        have g1 := (o5 p1 hp1 u1 a1 b1 c1 d1).2.1 h1
        have g2 := (o5 p2 hp2 u2 a2 b2 c2 d2).1 h2
        obtain ⟨v, v1, v2, v3⟩ := lines_cross ha hb (u := u2) (v := u1) (by linarith) (by linarith)
        have l1 : max a.start.y b.start.y ≤ v := (le_min a2 a1).trans v1
        have l2 : v ≤ min a.stop.y b.stop.y := v2.trans (max_le b2 b1)
        have l3 : |v - y| ≤ eps := by
          rw [abs_le] at *
          rcases min_choice u2 u1 with m | m <;> rcases max_choice u2 u1 with m' | m' <;> rw [m] at v1 <;> rw [m'] at v2 <;> constructor <;> linarith
        refine ⟨v, v, ⟨(le_max_left _ _).trans l1, l2.trans (min_le_left _ _)⟩, ⟨(le_max_right _ _).trans l1, l2.trans (min_le_right _ _)⟩, l3, l3, ?_⟩
        rw [v3, sub_self, abs_zero]; linarith

/-- If `b` is between `a` and `c`, which meet, then `b` meets one of them. -/
theorem meet_between {eps : ℝ} (he : 0 < eps) {a b c : Geom.Seg} (ha : Line a) (hc : Line c) {t : ℝ} (ta : a.start.y ≤ t ∧ t ≤ a.stop.y)
    (tb : b.start.y ≤ t ∧ t ≤ b.stop.y) (tc : c.start.y ≤ t ∧ t ≤ c.stop.y) (hab : a.atY t ≤ b.atY t) (hbc : b.atY t ≤ c.atY t) (h : Meet eps t a c) :
    Meet eps t a b ∨ Meet eps t b c := by
  obtain ⟨y0, y1, h1, h2, h3, h4, h5⟩ := h
  have ht : |t - t| ≤ eps := by rw [sub_self, abs_zero]; linarith
  have mid : ∀ {v w : ℝ}, |v - t| ≤ eps → min t v ≤ w → w ≤ max t v → |w - t| ≤ eps := by
    intro v w k1 k2 k3
    rw [abs_le] at *
    rcases min_choice t v with m | m <;> rcases max_choice t v with m' | m' <;> rw [m] at k2 <;> rw [m'] at k3 <;> constructor <;> linarith
  rw [abs_le] at h5
  rcases le_total (b.atY t) (a.atY y0) with g | g
  · obtain ⟨w, w1, w2, w3⟩ := line_reaches ha hab g
    left
    exact ⟨w, t, ⟨(le_min ta.1 h1.1).trans w1, w2.trans (max_le ta.2 h1.2)⟩, tb, mid h3 w1 w2, ht, by rw [w3, sub_self, abs_zero]; linarith⟩
  · rcases le_total (c.atY y1) (b.atY t) with g' | g'
    · obtain ⟨w, w1, w2, w3⟩ := line_reaches hc g' hbc
      right
      rw [min_comm] at w1
      rw [max_comm] at w2
      exact ⟨t, w, tb, ⟨(le_min tc.1 h2.1).trans w1, w2.trans (max_le tc.2 h2.2)⟩, ht, mid h4 w1 w2, by rw [w3, sub_self, abs_zero]; linarith⟩
    · left
      refine ⟨y0, t, h1, tb, h3, ht, ?_⟩
      rw [abs_le]; constructor <;> linarith

end Verif.Full
