import Verif.Pos.Props

/-!
# How far the drawn curves are from the original ones (C70, C71)
-/

namespace Verif.Pos
open Verif.Curve Verif.Geom Verif.Scan

theorem recentred_eq (c : Cubic) (y0 y1 : ℝ) : recentred c y0 y1 = rescaleC ((y0 + y1) / 2) 1 (ySubsegment c y0 y1) := by
  simp [recentred, rescaleC]

/-- The parabola of a part of a curve keeps to its bounds. -/
theorem parab_close {solve : ℝ → ℝ → ℝ → ℝ → List ℝ} (hs : FindsRoots solve) {c : Cubic} (h : c.Mono) {y0 y1 y : ℝ} (sp : c.Spans y0 y1) (hlt : y0 < y1)
    (h0 : y0 ≤ y) (h1 : y ≤ y1) :
    (fromCubic solve (recentred c y0 y1)).eval (y - (y0 + y1) / 2) + (fromCubic solve (recentred c y0 y1)).dmin ≤ solveX c y ∧
    solveX c y ≤ (fromCubic solve (recentred c y0 y1)).eval (y - (y0 + y1) / 2) + (fromCubic solve (recentred c y0 y1)).dmax := by
  obtain ⟨s, s0, s1, e⟩ := sub_pt h sp h0 h1
  have hm : (recentred c y0 y1).Mono := by rw [recentred_eq]; exact rescale_mono (ysub_mono h sp hlt) _ one_pos
  have := C66_bounds solve hs _ hm s s0 s1
  have e' : (recentred c y0 y1).eval s = ⟨solveX c y, y - (y0 + y1) / 2⟩ := by
    rw [recentred_eq, rescale_eval, e]; simp
  rw [e'] at this
  exact this

/-- The error of the parabola of a part of a curve. -/
noncomputable def parabError (solve : ℝ → ℝ → ℝ → ℝ → List ℝ) (c : Cubic) (y0 y1 : ℝ) : ℝ :=
  max (fromCubic solve (recentred c y0 y1)).dmax (-(fromCubic solve (recentred c y0 y1)).dmin)

theorem parab_near {solve : ℝ → ℝ → ℝ → ℝ → List ℝ} (hs : FindsRoots solve) {c : Cubic} (h : c.Mono) {y0 y1 y : ℝ} (sp : c.Spans y0 y1) (hlt : y0 < y1)
    (h0 : y0 ≤ y) (h1 : y ≤ y1) : |solveX c y - (fromCubic solve (recentred c y0 y1)).eval (y - (y0 + y1) / 2)| ≤ parabError solve c y0 y1 := by
  obtain ⟨a, b⟩ := parab_close hs h sp hlt h0 h1
  rw [abs_le]
  have e1 := le_max_left (fromCubic solve (recentred c y0 y1)).dmax (-(fromCubic solve (recentred c y0 y1)).dmin)
  have e2 := le_max_right (fromCubic solve (recentred c y0 y1)).dmax (-(fromCubic solve (recentred c y0 y1)).dmin)
  unfold parabError
  constructor <;> linarith

/-- A parabola as a quadratic Bézier. -/
theorem parab_bez (q : EstParab) (y0 y1 t : ℝ) : q.eval (y0 + t * (y1 - y0) - (y0 + y1) / 2) =
    bez2 (q.eval (y0 - (y0 + y1) / 2)) (midOf q y0 y1) (q.eval (y1 - (y0 + y1) / 2)) t := by
  simp only [EstParab.eval, midOf, bez2]; ring

theorem midOf_eq (q : EstParab) (y0 y1 : ℝ) : midOf q y0 y1 =
    2 * q.eval ((y0 + y1) / 2 - (y0 + y1) / 2) - (q.eval (y0 - (y0 + y1) / 2) + q.eval (y1 - (y0 + y1) / 2)) / 2 := by
  simp only [EstParab.eval, midOf]; ring

theorem mem_before {os l1 l2 : List Nat} {o o' : Nat} (e : os = l1 ++ o :: l2) (h : o' ∈ l1 ++ [o]) : o' = o ∨ ComesBefore os o' o := by
  rcases List.mem_append.1 h with h | h
  · right
    obtain ⟨u, v, rfl⟩ := List.append_of_mem h
    rw [e]
    unfold ComesBefore
    simp only [List.append_assoc, List.cons_append]
    refine (List.Sublist.trans ?_ (List.sublist_append_right u _))
    refine List.Sublist.cons_cons _ ?_
    refine (List.Sublist.trans ?_ (List.sublist_append_right v _))
    exact List.Sublist.cons_cons _ (List.nil_sublist _)
  · left; simpa using h

theorem before_mem {os l1 l2 : List Nat} {o o' : Nat} (hn : os.Nodup) (e : os = l1 ++ o :: l2) (h : o' = o ∨ ComesBefore os o' o) : o' ∈ l1 ++ [o] := by
  rcases h with rfl | h
  · simp
  · obtain ⟨r1, r2, e1, s1, s2⟩ := List.cons_sublist_iff.1 h
    obtain ⟨u, v, e2⟩ := List.append_of_mem (List.singleton_sublist.1 s2)
    have e3 : os = (r1 ++ u) ++ o :: v := by rw [e1, e2]; simp
    rw [e] at e3
    have hn' : (l1 ++ o :: l2).Nodup := e ▸ hn
    have : l1 = r1 ++ u := by
      have h1 : o ∉ l1 := fun h => (List.nodup_append.1 hn').2.2 o h o (by simp) rfl
      have h2 : o ∉ r1 ++ u := fun h => by
        rw [e3] at hn'
        exact (List.nodup_append.1 hn').2.2 o h o (by simp) rfl
      have a1 : (l1 ++ o :: l2).idxOf o = l1.length := by rw [List.idxOf_append_of_notMem h1]; simp
      have a2 : ((r1 ++ u) ++ o :: v).idxOf o = (r1 ++ u).length := by rw [List.idxOf_append_of_notMem h2]; simp
      rw [e3, a2] at a1
      exact (List.append_inj e3 a1.symm).1
    rw [this]
    simp [s1]

/-- **C70.** The end points of the added pieces: each is at a height after `y0` and at most `y1`, and its horizontal position is the greatest of
the positions, at this height, of the original curve and of those of the members before it. -/
theorem C70_positions {I : Input} {os : List Nat} (hn : os.Nodup) {y0 y1 : ℝ} (h01 : y0 ≤ y1) {n : ℕ} {out r : Nat → OPath}
    (h : allClose I n os y0 y1 out = some r) (hr : ¬ LeftAlone I y0 y1 os out) {o : Nat} (ho : o ∈ os) :
    ∃ added, (r o).els = (ensureOne I y0 o (out o)).els ++ added ∧ ∀ e ∈ added, ∃ a p, e = .quad a p ∧ y0 < p.y ∧ p.y ≤ y1 ∧
      IsGreatest {x | ∃ o', (o' = o ∨ ComesBefore os o' o) ∧ x = solveX (I.seg o').toCubic p.y} p.x := by
  rcases allClose_spec I hn h01 h with ⟨h, _⟩ | ⟨_, ss, h1, h2, h3⟩
  · exact absurd h hr
  · refine ⟨ss.map fun s => s.el o, by rw [h3 o, if_pos ho], ?_⟩
    intro e he
    obtain ⟨b1, b2⟩ := stacked_between h1 o e he
    obtain ⟨s, hs, rfl⟩ := List.mem_map.1 he
    refine ⟨_, _, rfl, b1, b2, ?_⟩
    obtain ⟨l1, l2, e⟩ := List.append_of_mem ho
    have := (h2 s hs).x1 l1 o l2 e
    convert this using 2
    ext x
    constructor
    · rintro ⟨o', ho', hx⟩; exact ⟨o', before_mem hn e ho', hx⟩
    · rintro ⟨o', ho', hx⟩; exact ⟨o', mem_before e ho', hx⟩

section
variable {I : Input} (hs : FindsRoots I.solve) {os : List Nat} (hn : os.Nodup) {o : Nat} (ho : o ∈ os) {d D e : ℝ} (hd : 0 ≤ d) (hD : 0 ≤ D)
include hs hn ho hd hD

/-- The deviation in one strip. -/
theorem strip_deviation {s : Strip} (hlt : s.lo < s.hi) (ok : StripOk I os s) (hm : ∀ o' ∈ os, (I.seg o').toCubic.Mono)
    (hsp : ∀ o' ∈ os, (I.seg o').toCubic.Spans s.lo s.hi)
    (horder : ∀ o', ComesBefore os o' o → ∀ y, s.lo ≤ y → y ≤ s.hi → solveX (I.seg o').toCubic y ≤ solveX (I.seg o).toCubic y + d ∧
      solveX (I.seg o).toCubic y ≤ solveX (I.seg o').toCubic y + D)
    (he : ∀ o' ∈ os, parabError I.solve (I.seg o').toCubic s.lo s.hi ≤ e)
    {x : ℝ} (hx0 : solveX (I.seg o).toCubic s.lo ≤ x) (hx1 : x ≤ solveX (I.seg o).toCubic s.lo + d) :
    (solveX (I.seg o).toCubic s.hi ≤ s.x1 o ∧ s.x1 o ≤ solveX (I.seg o).toCubic s.hi + d) ∧
    ∀ P ∈ (s.el o).trace ⟨x, s.lo⟩, -e ≤ P.x - solveX (I.seg o).toCubic P.y ∧ P.x - solveX (I.seg o).toCubic P.y ≤ 2 * d + D / 2 + 3 * e := by
  obtain ⟨l1, l2, el⟩ := List.append_of_mem ho
  have g1 := ok.x1 l1 o l2 el
  have g2 := ok.xm l1 o l2 el
  have inos : ∀ o' ∈ l1 ++ [o], o' ∈ os := fun o' h => by rw [el]; simp at h ⊢; tauto
  have hz0 : solveX (I.seg o).toCubic s.hi ≤ s.x1 o := g1.2 ⟨o, by simp, rfl⟩
  have hz1 : s.x1 o ≤ solveX (I.seg o).toCubic s.hi + d := by
    obtain ⟨o', ho', hx⟩ := g1.1
    rw [hx]
    rcases mem_before el ho' with rfl | hb
    · linarith
    · exact (horder o' hb s.hi hlt.le le_rfl).1
  have he0 : 0 ≤ e := (le_trans (abs_nonneg _) (parab_near hs (hm o ho) (hsp o ho) hlt le_rfl hlt.le)).trans (he o ho)
  have hm0 : midOf (fromCubic I.solve (recentred (I.seg o).toCubic s.lo s.hi)) s.lo s.hi ≤ s.xm o := g2.2 ⟨o, by simp, rfl⟩
  have hm1 : s.xm o ≤ midOf (fromCubic I.solve (recentred (I.seg o).toCubic s.lo s.hi)) s.lo s.hi + (2 * d + D + 4 * e) := by
    obtain ⟨o', ho', hx⟩ := g2.1
    rw [hx]
    rcases mem_before el ho' with rfl | hb
    · linarith
    · have ho's := inos o' ho'
      obtain ⟨a1, a2⟩ := parab_ends I.solve (I.seg o').toCubic hlt
      obtain ⟨b1, b2⟩ := parab_ends I.solve (I.seg o).toCubic hlt
      have c1 := abs_le.1 ((parab_near hs (hm o' ho's) (hsp o' ho's) hlt (y := (s.lo + s.hi) / 2) (by linarith) (by linarith)).trans (he o' ho's))
      have c2 := abs_le.1 ((parab_near hs (hm o ho) (hsp o ho) hlt (y := (s.lo + s.hi) / 2) (by linarith) (by linarith)).trans (he o ho))
      have d1 := horder o' hb s.lo le_rfl hlt.le
      have d2 := horder o' hb s.hi hlt.le le_rfl
      have d3 := horder o' hb ((s.lo + s.hi) / 2) (by linarith) (by linarith)
      dsimp only
      rw [midOf_eq, midOf_eq, a1, a2, b1, b2]
      linarith [c1.1, c1.2, c2.1, c2.2, d1.1, d1.2, d2.1, d2.2, d3.1]
  refine ⟨⟨hz0, hz1⟩, ?_⟩
  intro P hP
  obtain ⟨t, t0, t1, rfl⟩ := (strip_trace s o x P).1 hP
  have hw : 0 < s.hi - s.lo := by linarith
  have e1 : 0 ≤ t * (s.hi - s.lo) := mul_nonneg t0 hw.le
  have e2 : t * (s.hi - s.lo) ≤ s.hi - s.lo := mul_le_of_le_one_left hw.le t1
  have near := abs_le.1 ((parab_near hs (hm o ho) (hsp o ho) hlt (y := s.lo + t * (s.hi - s.lo)) (by linarith) (by linarith)).trans (he o ho))
  obtain ⟨b1, b2⟩ := parab_ends I.solve (I.seg o).toCubic hlt
  rw [parab_bez, b1, b2] at near
  have lower := bez2_mono t0 t1 hx0 hm0 hz0
  have upper : bez2 x (s.xm o) (s.x1 o) t ≤ bez2 (solveX (I.seg o).toCubic s.lo)
      (midOf (fromCubic I.solve (recentred (I.seg o).toCubic s.lo s.hi)) s.lo s.hi) (solveX (I.seg o).toCubic s.hi) t + (2 * d + D / 2 + 2 * e) := by
    refine (bez2_mono t0 t1 hx1 hm1 hz1).trans ?_
    unfold bez2
    have q1 : 0 ≤ t * (1 - t) := mul_nonneg t0 (by linarith)
    have q2 : t * (1 - t) ≤ 1 / 4 := by nlinarith [sq_nonneg (t - 1 / 2)]
    have q3 : ((1 - t) ^ 2 + t ^ 2) = 1 - 2 * (t * (1 - t)) := by ring
    have q4 : (1 - t) ^ 2 * d + t ^ 2 * d = d - 2 * (t * (1 - t)) * d := by linear_combination d * q3
    have q5 : 2 * (1 - t) * t * (2 * d + D + 4 * e) = 2 * (t * (1 - t)) * (2 * d + D + 4 * e) := by ring
    have q6 : (t * (1 - t)) * (d + D + 4 * e) ≤ 1 / 4 * (d + D + 4 * e) := mul_le_mul_of_nonneg_right q2 (by linarith)
    nlinarith
  constructor <;> dsimp only <;> linarith [near.1, near.2]

/-- **C70.** If originals of the group that come before `o` are at most `d` to the right of its original and at most `D` to its left, and accepted
parabolas have an error of at most `e`, then the drawn pieces of `o` are at most `e` to the left and at most `2 d + D / 2 + 3 e` to the right of the
original, at every height. -/
theorem C70_deviation {y0 y1 : ℝ} (h01 : y0 ≤ y1) {n : ℕ} {out r : Nat → OPath} (h : allClose I n os y0 y1 out = some r)
    (hm : ∀ o' ∈ os, (I.seg o').toCubic.Mono) (hsp : ∀ o' ∈ os, (I.seg o').toCubic.Spans y0 y1)
    (horder : ∀ o', ComesBefore os o' o → ∀ y, y0 ≤ y → y ≤ y1 → solveX (I.seg o').toCubic y ≤ solveX (I.seg o).toCubic y + d ∧
      solveX (I.seg o).toCubic y ≤ solveX (I.seg o').toCubic y + D)
    (he : ∀ o' ∈ os, ∀ u v, y0 ≤ u → u < v → v ≤ y1 → Fits I.solve I.accuracy u v (I.seg o').toCubic → parabError I.solve (I.seg o').toCubic u v ≤ e)
    (hy : (ensureOne I y0 o (out o)).stop.y = y0)
    (hx0 : solveX (I.seg o).toCubic y0 ≤ (ensureOne I y0 o (out o)).stop.x) (hx1 : (ensureOne I y0 o (out o)).stop.x ≤ solveX (I.seg o).toCubic y0 + d) :
    LeftAlone I y0 y1 os out ∧ r = out ∨ ∃ added, (r o).els = (ensureOne I y0 o (out o)).els ++ added ∧
      ∀ P ∈ trace (ensureOne I y0 o (out o)).stop added,
        -e ≤ P.x - solveX (I.seg o).toCubic P.y ∧ P.x - solveX (I.seg o).toCubic P.y ≤ 2 * d + D / 2 + 3 * e := by
  rcases allClose_spec I hn h01 h with h | ⟨_, ss, h1, h2, h3⟩
  · exact .inl h
  · refine .inr ⟨ss.map fun s => s.el o, by rw [h3 o, if_pos ho], ?_⟩
    obtain ⟨x, hx⟩ : ∃ x, x = (ensureOne I y0 o (out o)).stop.x := ⟨_, rfl⟩
    have e0 : (ensureOne I y0 o (out o)).stop = ⟨x, y0⟩ := Pt.ext hx.symm hy
    rw [e0] at hx0 hx1 ⊢
    simp only at hx0 hx1
    clear h h3 e0 hx hy
    have key : ∀ {u v : ℝ} {ss : List Strip}, Stacked u v ss → y0 ≤ u → v = y1 → (∀ s ∈ ss, StripOk I os s) → ∀ x, solveX (I.seg o).toCubic u ≤ x →
        x ≤ solveX (I.seg o).toCubic u + d → ∀ P ∈ trace ⟨x, u⟩ (ss.map fun s => s.el o),
        -e ≤ P.x - solveX (I.seg o).toCubic P.y ∧ P.x - solveX (I.seg o).toCubic P.y ≤ 2 * d + D / 2 + 3 * e := by
      intro u v ss hst
      induction hst with
      | nil => intro _ _ _ x _ _ P hP; simp [trace] at hP
      | cons s hlt hst ih =>
        intro hu hv hok x k0 k1 P hP
        have hhi : s.hi ≤ y1 := hv ▸ hst.le
        have oks := hok s (by simp)
        obtain ⟨⟨c1, c2⟩, c3⟩ := strip_deviation hs hn ho hd hD hlt oks hm (fun o' ho' => (hsp o' ho').sub hu hlt.le hhi)
          (fun o' hb y l1 l2 => horder o' hb y (hu.trans l1) (l2.trans hhi))
          (fun o' ho' => he o' ho' s.lo s.hi hu hlt hhi (oks.fits o' ho')) k0 k1
        rcases hP with hP | hP
        · exact c3 P hP
        · exact ih (hu.trans hlt.le) hv (fun s' hs' => hok s' (by simp [hs'])) (s.x1 o) c1 c2 P hP
    exact key h1 le_rfl rfl h2 x hx0 hx1

end

/-! ## C71 -/

/-- **C71.** What is copied is the original: if a path has come down along the original curve, the piece that is copied down to the height `y` consists
of exactly the points of the original curve between the two heights. -/
theorem C71_copied {I : Input} {o : Nat} (hc : isLine (I.seg o) = false) (hm : (I.seg o).toCubic.Mono) (p : OPath) {y : ℝ}
    (sp : (I.seg o).toCubic.Spans p.stop.y y) (hx : p.stop.x = solveX (I.seg o).toCubic p.stop.y)
    (hend : (I.second o).y = y → (I.second o).x = solveX (I.seg o).toCubic y) (P : Pt) :
    P ∈ (copyEl I o p y).trace p.stop ↔ p.stop.y ≤ P.y ∧ P.y ≤ y ∧ P.x = solveX (I.seg o).toCubic P.y := by
  have e : copyEl I o p y = .curve (ySubsegment (I.seg o).toCubic p.stop.y y).p1 (ySubsegment (I.seg o).toCubic p.stop.y y).p2
      (ySubsegment (I.seg o).toCubic p.stop.y y).p3 := by
    unfold copyEl
    rw [hc]
    simp only [Bool.false_eq_true, if_false, nextSub, El.curve.injEq, true_and]
    split
    · rename_i h
      exact Pt.ext (hend h) h
    · rfl
  have e0 : p.stop = (ySubsegment (I.seg o).toCubic p.stop.y y).p0 := by rw [sub_p0]; exact Pt.ext hx rfl
  have e1 : (copyEl I o p y).trace p.stop = {r | ∃ t : ℝ, 0 ≤ t ∧ t ≤ 1 ∧ r = (ySubsegment (I.seg o).toCubic p.stop.y y).eval t} := by
    rw [e]
    show {r | ∃ t : ℝ, 0 ≤ t ∧ t ≤ 1 ∧ r = (Cubic.mk p.stop _ _ _).eval t} = _
    conv_lhs => rw [show p.stop = (ySubsegment (I.seg o).toCubic p.stop.y y).p0 from e0]
    rfl
  rw [e1]
  constructor
  · rintro ⟨t, t0, t1, rfl⟩
    exact sub_on hm sp t0 t1
  · rintro ⟨a, b, k⟩
    obtain ⟨t, t0, t1, h⟩ := sub_pt hm sp a b
    exact ⟨t, t0, t1, by rw [h]; exact Pt.ext k rfl⟩

/-! ## C69: what is left alone -/

theorem nextSub_eq {I : Input} {o : Nat} {p : OPath} {y : ℝ} (hx : p.stop.x = solveX (I.seg o).toCubic p.stop.y)
    (hend : (I.second o).y = y → (I.second o).x = solveX (I.seg o).toCubic y) :
    nextSub (I.seg o) p y (I.second o) = ySubsegment (I.seg o).toCubic p.stop.y y := by
  have e3 : (if (I.second o).y = y then I.second o else (ySubsegment (I.seg o).toCubic p.stop.y y).p3) = (ySubsegment (I.seg o).toCubic p.stop.y y).p3 := by
    split
    · rename_i h
      exact Pt.ext (hend h) h
    · rfl
  have e0 : p.stop = (ySubsegment (I.seg o).toCubic p.stop.y y).p0 := by rw [sub_p0]; exact Pt.ext hx rfl
  unfold nextSub
  dsimp only
  conv_rhs => rw [show ySubsegment (I.seg o).toCubic p.stop.y y = ⟨p.stop, (ySubsegment (I.seg o).toCubic p.stop.y y).p1, (ySubsegment (I.seg o).toCubic p.stop.y y).p2,
    (ySubsegment (I.seg o).toCubic p.stop.y y).p3⟩ by rw [e0]; rfl]
  rw [Cubic.mk.injEq]
  refine ⟨rfl, rfl, rfl, ?_⟩
  convert e3

/-- **C69.** Two curves that are left alone need no treatment: if both paths have come down along the original curves, and the curves are in order where they
meet (at `y0` or at `y1`), then the original curves are strictly in order at all heights between `y0` and `y1`. -/
theorem C69_left_alone {I : Input} {a b : Nat} {y0 y1 : ℝ} (h01 : y0 < y1) {out : Nat → OPath} (h : LeftAlone I y0 y1 [a, b] out)
    (hc : isLine (I.seg a) = false ∨ isLine (I.seg b) = false)
    (hm : ∀ o ∈ [a, b], (I.seg o).toCubic.Mono) (hsp : ∀ o ∈ [a, b], (I.seg o).toCubic.Spans (out o).stop.y y1)
    (hle : ∀ o ∈ [a, b], (out o).stop.y ≤ y0)
    (hx : ∀ o ∈ [a, b], (out o).stop.x = solveX (I.seg o).toCubic (out o).stop.y)
    (hend : ∀ o ∈ [a, b], (I.second o).y = y1 → (I.second o).x = solveX (I.seg o).toCubic y1)
    (ho0 : solveX (I.seg a).toCubic y0 ≤ solveX (I.seg b).toCubic y0) (ho1 : solveX (I.seg a).toCubic y1 ≤ solveX (I.seg b).toCubic y1)
    (y : ℝ) (hy0 : y0 < y) (hy1 : y < y1) : solveX (I.seg a).toCubic y < solveX (I.seg b).toCubic y := by
  have on : ∀ o ∈ [a, b], (Seg.cubic (ySubsegment (I.seg o).toCubic (out o).stop.y y1)).On ⟨solveX (I.seg o).toCubic y, y⟩ := fun o ho => by
    obtain ⟨s, s0, s1, e⟩ := sub_pt (hm o ho) (hsp o ho) ((hle o ho).trans hy0.le) hy1.le
    exact ⟨s, s0, s1, e.symm⟩
  have mono : ∀ o ∈ [a, b], (ySubsegment (I.seg o).toCubic (out o).stop.y y1).Mono := fun o ho => ysub_mono (hm o ho) (hsp o ho) ((hle o ho).trans_lt h01)
  rcases h with h | ⟨a', b', e, h⟩
  · rcases hc with hc | hc
    · have := (isLine_iff _).2 (h a (by simp)); rw [hc] at this; cases this
    · have := (isLine_iff _).2 (h b (by simp)); rw [hc] at this; cases this
  · simp only [List.cons.injEq, and_true] at e
    obtain ⟨rfl, rfl⟩ := e
    rw [nextSub_eq (hx a (by simp)) (hend a (by simp)), nextSub_eq (hx b (by simp)) (hend b (by simp))] at h
    rcases h with ⟨k0, k1, h⟩ | ⟨k0, k1, h⟩
    · refine C64_transversal_after _ _ y1 (mono a (by simp)) (mono b (by simp)) ?_ ?_ ?_ le_rfl le_rfl h _ _ y (on a (by simp)) (on b (by simp)) ?_ hy1.le
      · rw [sub_p0, sub_p0]; exact k0.trans k1.symm
      · rw [sub_p0, sub_p0, k0, k1]; exact ho0
      · rw [sub_p0, k0]; exact h01
      · rw [sub_p0, k0]; exact hy0
    · exact C64_transversal_before _ _ y0 (mono a (by simp)) (mono b (by simp)) rfl ho1 h01 (hle a (by simp)) (hle b (by simp)) h _ _ y
        (on a (by simp)) (on b (by simp)) hy0.le hy1

end Verif.Pos
