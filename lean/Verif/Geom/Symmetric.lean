import Verif.Geom.IProps
import Verif.Geom.IFuel
import Verif.Curve.Lemmas2

/-!
# The comparison of two curves does not depend on which of them comes first (C89)
-/

namespace Verif.Geom
open Verif.Curve Filter

/-! ## Flipping -/

theorem flip_flip_order (o : Order) : o.flip.flip = o := by cases o <;> rfl
theorem flip_ish (o : Order) : o.flip = .ish ↔ o = .ish := by cases o <;> simp [Order.flip]

theorem flip_last (c : CurveOrder ℝ) : c.flip.cmps.getLast? = c.cmps.getLast?.map Entry.flip := by simp [CurveOrder.flip, List.getLast?_map]

theorem push_flip (c : CurveOrder ℝ) (y : ℝ) (o : Order) : c.flip.push y o.flip = (c.push y o).map CurveOrder.flip := by
  have e : c.flip.cmps = c.cmps.map Entry.flip := rfl
  unfold CurveOrder.push
  rw [flip_last]
  rcases hl : c.cmps.getLast? with _ | ⟨ls, lo⟩
  · simp [CurveOrder.flip, Entry.flip]
  · simp only [Option.map_some, Entry.flip]
    by_cases h : y < ls
    · simp [h]
    · simp only [h, if_false]
      by_cases h' : ls < y
      · cases lo <;> cases o <;> simp [Order.flip, CurveOrder.flip, Entry.flip, h', List.map_dropLast]
      · cases lo <;> cases o <;> simp [Order.flip, CurveOrder.flip, Entry.flip, h', List.map_dropLast]

open Classical in
theorem pushSign_flip (y0 y1 : ℝ) (c : CurveOrder ℝ) (e : Option ℝ) (o : Order) : pushSign y0 y1 c.flip e o.flip = (pushSign y0 y1 c e o).map CurveOrder.flip := by
  cases e with
  | none => rfl
  | some e =>
    unfold pushSign
    dsimp only
    rw [flip_last]
    rcases hl : c.cmps.getLast? with _ | ⟨ls, lo⟩
    · by_cases h : y0 < e
      · simp [h, push_flip]
      · simp [h]
    · simp only [Option.map_some, Entry.flip]
      by_cases h : y0 < e ∧ ls < y1 ∧ ls < e
      · simp [h, push_flip]
      · simp only [h, if_false, Option.map_some]

theorem pushSigns_flip (y0 y1 : ℝ) (l : List (Option ℝ × Order)) : ∀ c : CurveOrder ℝ,
    pushSigns y0 y1 c.flip (l.map fun p => (p.1, p.2.flip)) = (pushSigns y0 y1 c l).map CurveOrder.flip := by
  induction l with
  | nil => intro c; rfl
  | cons p l ih =>
    intro c
    obtain ⟨e, o⟩ := p
    simp only [List.map_cons, pushSigns]
    rw [pushSign_flip]
    cases pushSign y0 y1 c e o with
    | none => rfl
    | some c' => exact ih c'

open Classical in
theorem quadraticSigns_flip {a b c lower upper y0 y1 : ℝ} (h : lower ≤ upper) (out : CurveOrder ℝ) :
    pushQuadraticSigns (-a) (-b) (-c) (-upper) (-lower) y0 y1 out.flip = (pushQuadraticSigns a b c lower upper y0 y1 out).map CurveOrder.flip := by
  unfold pushQuadraticSigns
  by_cases ha : a = 0
  · simp only [ha, neg_zero, if_true]
    by_cases hb : b = 0
    · simp only [hb, neg_zero, if_true]
      rw [← pushSign_flip]
      congr 1
      by_cases h1 : c < lower
      · have h2 : ¬ upper < c := by linarith
        simp [h1, h2, Order.flip]
      · by_cases h2 : upper < c <;> simp [h1, h2, Order.flip]
    · have hb' : -b ≠ 0 := neg_ne_zero.2 hb
      have e0 : -(-c - -upper) / -b = -(c - upper) / b := by field_simp; ring
      have e1 : -(-c - -lower) / -b = -(c - lower) / b := by field_simp; ring
      simp only [hb, hb', if_false, e0, e1]
      by_cases h0 : 0 < b
      · have h1 : ¬ 0 < -b := by linarith
        simp only [h0, h1, if_true, if_false]
        rw [← pushSigns_flip]; rfl
      · have h1 : 0 < -b := by
          have := lt_of_le_of_ne (not_lt.1 h0) hb
          linarith
        simp only [h0, h1, if_true, if_false]
        rw [← pushSigns_flip]; rfl
  · have ha' : -a ≠ 0 := neg_ne_zero.2 ha
    have e0 : -b * (1 / -a) = b * (1 / a) := by field_simp
    have e1 : (-c - -upper) * (1 / -a) = (c - upper) * (1 / a) := by field_simp; ring
    have e2 : (-c - -lower) * (1 / -a) = (c - lower) * (1 / a) := by field_simp; ring
    simp only [ha, ha', if_false, e0, e1, e2]
    by_cases h0 : 0 < a
    · have h1 : ¬ 0 < -a := by linarith
      simp only [h0, h1, if_true, if_false]
      rw [← pushSigns_flip]; rfl
    · have h1 : 0 < -a := by
        have := lt_of_le_of_ne (not_lt.1 h0) ha
        linarith
      simp only [h0, h1, if_true, if_false]
      rw [← pushSigns_flip]; rfl

theorem setLast_flip (c : CurveOrder ℝ) (y : ℝ) : setLast c.flip y = (setLast c y).map CurveOrder.flip := by
  unfold setLast
  rw [flip_last]
  rcases hl : c.cmps.getLast? with _ | ⟨ls, lo⟩
  · rfl
  · simp [CurveOrder.flip, Entry.flip, List.map_dropLast]

theorem unscale_flip (mid uns y0 y1 : ℝ) (c : CurveOrder ℝ) : unscale mid uns y0 y1 c.flip = (unscale mid uns y0 y1 c).map CurveOrder.flip := by
  unfold unscale
  rw [← setLast_flip]
  congr 1
  simp [CurveOrder.flip, Entry.flip]

theorem iter_flip (c : CurveOrder ℝ) : c.flip.iter = c.iter.map fun p => ⟨p.lo, p.hi, p.order.flip⟩ := pieces_flip _ _

theorem onePiece_flip {go go' : ℝ → ℝ → CurveOrder ℝ → Option (CurveOrder ℝ)} {acc y0 y1 spread : ℝ} {Y0 Y1 : ℝ}
    (hgo : ∀ u v out, Y0 ≤ u → u ≤ Y1 → Y0 ≤ v → v ≤ Y1 → go' u v out.flip = (go u v out).map CurveOrder.flip) {p : Piece ℝ}
    (h0 : Y0 ≤ p.lo ∧ p.lo ≤ Y1) (h1 : Y0 ≤ p.hi ∧ p.hi ≤ Y1) (out : CurveOrder ℝ) :
    onePiece go' acc y0 y1 spread out.flip ⟨p.lo, p.hi, p.order.flip⟩ = (onePiece go acc y0 y1 spread out p).map CurveOrder.flip := by
  unfold onePiece
  dsimp only
  by_cases hi : p.order = .ish
  · have hi' : p.order.flip = .ish := (flip_ish _).2 hi
    rw [if_pos hi, if_pos hi']
    by_cases hb : y1 - y0 ≤ acc ∨ spread ≤ acc
    · rw [if_pos hb, if_pos hb, push_flip]
    · rw [if_neg hb, if_neg hb]
      by_cases hs : p.hi - p.lo < 1 / 2 * (y1 - y0)
      · rw [if_pos hs, if_pos hs]
        exact hgo _ _ _ h0.1 h0.2 h1.1 h1.2
      · rw [if_neg hs, if_neg hs]
        have m0 : Y0 ≤ 1 / 2 * (p.lo + p.hi) := by linarith
        have m1 : 1 / 2 * (p.lo + p.hi) ≤ Y1 := by linarith
        rw [hgo _ _ _ h0.1 h0.2 m0 m1]
        cases go p.lo (1 / 2 * (p.lo + p.hi)) out with
        | none => rfl
        | some r => exact hgo _ _ _ m0 m1 h1.1 h1.2
  · have hi' : p.order.flip ≠ .ish := fun e => hi ((flip_ish _).1 e)
    rw [if_neg hi, if_neg hi', push_flip]

theorem allPieces_flip {go go' : ℝ → ℝ → CurveOrder ℝ → Option (CurveOrder ℝ)} {acc y0 y1 spread : ℝ} {Y0 Y1 : ℝ}
    (hgo : ∀ u v out, Y0 ≤ u → u ≤ Y1 → Y0 ≤ v → v ≤ Y1 → go' u v out.flip = (go u v out).map CurveOrder.flip) (ps : List (Piece ℝ)) :
    (∀ p ∈ ps, (Y0 ≤ p.lo ∧ p.lo ≤ Y1) ∧ Y0 ≤ p.hi ∧ p.hi ≤ Y1) → ∀ out : CurveOrder ℝ,
    allPieces go' acc y0 y1 spread out.flip (ps.map fun p => ⟨p.lo, p.hi, p.order.flip⟩) = (allPieces go acc y0 y1 spread out ps).map CurveOrder.flip := by
  induction ps with
  | nil => intro _ out; rfl
  | cons p ps ih =>
    intro h out
    simp only [List.map_cons, allPieces]
    rw [onePiece_flip hgo (h p (by simp)).1 (h p (by simp)).2]
    cases onePiece go acc y0 y1 spread out p with
    | none => rfl
    | some r => exact ih (fun q hq => h q (by simp [hq])) r

/-! ## The pieces are in range -/

theorem pieces_range {Y0 Y1 : ℝ} : ∀ (es : List (Entry ℝ)) (y : ℝ), Y0 ≤ y → y ≤ Y1 → (∀ e ∈ es, Y0 ≤ e.stop ∧ e.stop ≤ Y1) →
    ∀ p ∈ pieces y es, (Y0 ≤ p.lo ∧ p.lo ≤ Y1) ∧ Y0 ≤ p.hi ∧ p.hi ≤ Y1
  | [], _, _, _, _ => by simp [pieces]
  | e :: es, y, h0, h1, h => by
    intro p hp
    simp only [pieces, List.mem_cons] at hp
    have he := h e (by simp)
    rcases hp with rfl | hp
    · exact ⟨⟨h0, h1⟩, he⟩
    · exact pieces_range es e.stop he.1 he.2 (fun e' h' => h e' (by simp [h'])) p hp

theorem unscale_range {mid uns y0 y1 : ℝ} (hle : y0 ≤ y1) {c r : CurveOrder ℝ} (h : unscale mid uns y0 y1 c = some r) :
    ∀ p ∈ r.iter, (y0 ≤ p.lo ∧ p.lo ≤ y1) ∧ y0 ≤ p.hi ∧ p.hi ≤ y1 := by
  unfold unscale setLast at h
  dsimp only at h
  split at h
  · cases h
  · cases h
    refine pieces_range _ _ le_rfl hle fun e he => ?_
    rw [List.mem_append] at he
    rcases he with he | he
    · have := List.dropLast_subset _ he
      obtain ⟨e', -, rfl⟩ := List.mem_map.1 this
      exact ⟨le_min (le_max_right _ _) hle, min_le_right _ _⟩
    · simp only [List.mem_singleton] at he
      subst he; exact ⟨hle, le_rfl⟩

/-! ## The tests -/

theorem maxDistance_comm (c d : Cubic) : maxDistance c d = maxDistance d c := by
  have e : ∀ p q : Pt, lInfty p q = lInfty q p := fun p q => by unfold lInfty; rw [abs_sub_comm, abs_sub_comm p.y]
  unfold maxDistance
  rw [e, e c.p1, e c.p2, e c.p3]

theorem tolOrder_comm {a b tol : ℝ} (h : 0 ≤ tol) : tolOrder b a tol = (tolOrder a b tol).flip := by
  unfold tolOrder
  by_cases h1 : a < b - tol
  · have : ¬ b < a - tol := by linarith
    have h3 : a + tol < b := by linarith
    simp [h1, this, h3, Order.flip]
  · by_cases h2 : b + tol < a
    · have : b < a - tol := by linarith
      simp [h1, h2, this, Order.flip]
    · have h3 : ¬ b < a - tol := fun h => h2 (by linarith)
      have h4 : ¬ a + tol < b := fun h => h1 (by linarith)
      simp [h1, h2, h3, h4, Order.flip]

theorem boxOrder_comm {c d : Cubic} {tol : ℝ} (h : 0 < tol) (hc : c.bboxMin ≤ c.bboxMax) (hd : d.bboxMin ≤ d.bboxMax) : boxOrder d c tol = (boxOrder c d tol).flip := by
  unfold boxOrder
  by_cases h1 : c.bboxMax + tol ≤ d.bboxMin
  · have : ¬ d.bboxMax + tol ≤ c.bboxMin := by linarith
    simp [h1, this, Order.flip]
  · by_cases h2 : d.bboxMax + tol ≤ c.bboxMin <;> simp [h1, h2, Order.flip]

theorem diffEst_comm (solve : ℝ → ℝ → ℝ → ℝ → List ℝ) (c d : Cubic) (y0 y1 : ℝ) :
    diffEst solve d c y0 y1 = ⟨-(diffEst solve c d y0 y1).c0, -(diffEst solve c d y0 y1).c1, -(diffEst solve c d y0 y1).c2, -(diffEst solve c d y0 y1).dmax, -(diffEst solve c d y0 y1).dmin⟩ := by
  unfold diffEst paddedDiff EstParab.sub
  simp only [EstParab.mk.injEq]
  rw [max_comm (fromCubic solve (rescaleC ((y0 + y1) / 2) (1 / max (y1 - y0) 1) d)).maxParam]
  refine ⟨?_, ?_, ?_, ?_, ?_⟩ <;> ring

theorem bbox_le (c : Cubic) : c.bboxMin ≤ c.bboxMax := (Cubic.bboxMin_least c).2 (Cubic.bboxMax_greatest c).1

/-! ## The recursion -/

section
variable {solve : ℝ → ℝ → ℝ → ℝ → List ℝ} {tol acc : ℝ}

theorem diffEst_range (hs : FindsRoots solve) {c0 c1 : Cubic} (h0 : c0.Mono) (h1 : c1.Mono) {y0 y1 : ℝ} (s0 : c0.Spans y0 y1) (s1 : c1.Spans y0 y1) (hlt : y0 < y1) :
    (diffEst solve (ySubsegment c0 y0 y1) (ySubsegment c1 y0 y1) y0 y1).dmin ≤ (diffEst solve (ySubsegment c0 y0 y1) (ySubsegment c1 y0 y1) y0 y1).dmax := by
  have := diffEst_ok solve hs h0 h1 s0 s1 hlt le_rfl hlt.le
  dsimp only at this
  linarith [this.1.trans this.2]

/-- Without rotations the recursion treats both arguments alike. -/
theorem intersectRec_flip (hs : FindsRoots solve) (htol : 0 < tol) (hacc : 0 < acc) {o0 o1 : Cubic} (h0 : o0.Mono) (h1 : o1.Mono) (hU : Upright acc o0 o1) {Y0 Y1 : ℝ}
    (s0 : o0.p0.y ≤ Y0 ∧ Y1 ≤ o0.p3.y) (s1 : o1.p0.y ≤ Y0 ∧ Y1 ≤ o1.p3.y) (n : ℕ) : ∀ u v out, Y0 ≤ u → u ≤ Y1 → Y0 ≤ v → v ≤ Y1 →
      intersectRec solve tol acc n o1 o0 u v out.flip = (intersectRec solve tol acc n o0 o1 u v out).map CurveOrder.flip := by
  induction n with
  | zero => intros; rfl
  | succ n ih =>
    intro u v out hu hu' hv hv'
    rw [intersectRec, intersectRec]
    dsimp only
    rw [maxDistance_comm (ySubsegment o1 u v)]
    by_cases hd : maxDistance (ySubsegment o0 u v) (ySubsegment o1 u v) ≤ tol
    · rw [if_pos hd, if_pos hd]; exact push_flip out v .ish
    · rw [if_neg hd, if_neg hd]
      by_cases ha : v - u < acc
      · rw [if_pos ha, if_pos ha, boxOrder_comm htol (bbox_le _) (bbox_le _), push_flip]
      · rw [if_neg ha, if_neg ha]
        have huv : u < v := by linarith
        have p0 : o0.Spans u v := ⟨s0.1.trans hu, huv.le, hv'.trans s0.2⟩
        have p1 : o1.Spans u v := ⟨s1.1.trans hu, huv.le, hv'.trans s1.2⟩
        have on0 : ∀ {t}, u ≤ t → t ≤ v → o0.At (solveX o0 t) t := fun a b => at_of_range (p0.1.trans a) (b.trans p0.2.2)
        have on1 : ∀ {t}, u ≤ t → t ≤ v → o1.At (solveX o1 t) t := fun a b => at_of_range (p1.1.trans a) (b.trans p1.2.2)
        have hr := hU u v _ _ _ _ (not_lt.1 ha) (on0 le_rfl huv.le) (on0 huv.le le_rfl) (on1 le_rfl huv.le) (on1 huv.le le_rfl)
        have hr' : |solveX o1 v - solveX o1 u| < 16 * (v - u) ∨ |solveX o0 v - solveX o0 u| < 16 * (v - u) ∨
            ¬ (0 < solveX o1 v - solveX o1 u ↔ 0 < solveX o0 v - solveX o0 u) := by
          rcases hr with h | h | h
          · exact .inr (.inl h)
          · exact .inl h
          · exact .inr (.inr fun e => h e.symm)
        rw [no_rotation hr, no_rotation hr']
        dsimp only
        obtain ⟨dep, hdep⟩ : ∃ d, d = diffEst solve (ySubsegment o0 u v) (ySubsegment o1 u v) u v := ⟨_, rfl⟩
        have hle : -dep.dmax - tol ≤ -dep.dmin + tol := by
          have := diffEst_range hs h0 h1 p0 p1 huv
          rw [← hdep] at this
          linarith
        rw [diffEst_comm solve (ySubsegment o0 u v), ← hdep]
        dsimp only
        have e1 : - -dep.dmin - tol = -(-dep.dmin + tol) := by ring
        have e2 : - -dep.dmax + tol = -(-dep.dmax - tol) := by ring
        have e3 : -dep.dmin - -dep.dmax = dep.dmax - dep.dmin := by ring
        have e4 : (CurveOrder.new (u - (u + v) / 2)) = (CurveOrder.new (u - (u + v) / 2)).flip := rfl
        rw [e1, e2, e3]
        have key := quadraticSigns_flip (a := dep.c2) (b := dep.c1) (c := dep.c0) (y0 := (u - (u + v) / 2) * (1 / max (v - u) 1)) (y1 := (v - (u + v) / 2) * (1 / max (v - u) 1))
          hle (CurveOrder.new (u - (u + v) / 2))
        rw [← e4] at key
        rw [key]
        cases pushQuadraticSigns dep.c2 dep.c1 dep.c0 (-dep.dmax - tol) (-dep.dmin + tol) ((u - (u + v) / 2) * (1 / max (v - u) 1)) ((v - (u + v) / 2) * (1 / max (v - u) 1))
            (CurveOrder.new (u - (u + v) / 2)) with
        | none => rfl
        | some scratch =>
          simp only [Option.map_some]
          rw [unscale_flip]
          cases hsc : unscale ((u + v) / 2) (max (v - u) 1) u v scratch with
          | none => rfl
          | some r =>
            simp only [Option.map_some]
            rw [iter_flip]
            refine allPieces_flip ih _ (fun p hp => ?_) out
            obtain ⟨⟨a, b⟩, c, d⟩ := unscale_range huv.le hsc p hp
            exact ⟨⟨hu.trans a, b.trans hv'⟩, hu.trans c, d.trans hv'⟩

/-- **C89.** The comparison of two descending curves that are never compared after a rotation is the same, up to exchanging left and right, whichever of them comes first. -/
theorem C89_symmetric (hs : FindsRoots solve) (htol : 0 < tol) (hacc : 0 < acc) {c0 c1 : Cubic} (h0 : c0.Mono) (h1 : c1.Mono) (hU : Upright acc c0 c1) (n : ℕ) :
    intersectCubics solve tol acc n c1 c0 = (intersectCubics solve tol acc n c0 c1).map CurveOrder.flip := by
  unfold intersectCubics
  dsimp only
  rw [max_comm c1.p0.y, min_comm c1.p3.y]
  by_cases hlt : max c0.p0.y c1.p0.y < min c0.p3.y c1.p3.y
  · rw [if_pos hlt, if_pos hlt]
    exact intersectRec_flip hs htol hacc h0 h1 hU ⟨le_max_left _ _, min_le_left _ _⟩ ⟨le_max_right _ _, min_le_right _ _⟩ n _ _ (CurveOrder.new _) le_rfl hlt.le hlt.le le_rfl
  · rw [if_neg hlt, if_neg hlt]
    by_cases he : max c0.p0.y c1.p0.y = min c0.p3.y c1.p3.y
    · rw [if_pos he, if_pos he]
      have d0 := h0.1
      have d1 := h1.1
      by_cases e0 : c0.p0.y = c1.p3.y
      · have e1 : c1.p0.y ≠ c0.p3.y := by intro e; linarith
        rw [if_pos e0, if_neg e1]
        dsimp only
        rw [tolOrder_comm htol.le]
        exact push_flip (CurveOrder.new _) _ _
      · have e1 : c1.p0.y = c0.p3.y := by
          rcases max_choice c0.p0.y c1.p0.y with a | a <;> rcases min_choice c0.p3.y c1.p3.y with b | b <;> rw [a, b] at he
          · linarith
          · exact absurd he e0
          · exact he
          · linarith
        rw [if_neg e0, if_pos e1]
        dsimp only
        rw [tolOrder_comm htol.le]
        exact push_flip (CurveOrder.new _) _ _
    · rw [if_neg he, if_neg he]; rfl
end

/-! ## Non-vacuity -/

/-- Two crossing lines: the comparison in either direction ends, and one is the flip of the other. -/
example : ∃ solve N out, FindsRoots solve ∧ (∀ n ≥ N, intersectCubics solve 1 1 n (lineC 0 3) (lineC 3 0) = some out) ∧
    ∀ n ≥ N, intersectCubics solve 1 1 n (lineC 3 0) (lineC 0 3) = some out.flip := by
  obtain ⟨solve, hs⟩ := findsRoots_exists
  have hx0 : (lineC 0 3).At (3 / 2) (3 / 2) := ⟨1 / 2, by norm_num, by norm_num, by rw [lineC_eval]; norm_num⟩
  have hx1 : (lineC 3 0).At (3 / 2) (3 / 2) := ⟨1 / 2, by norm_num, by norm_num, by rw [lineC_eval]; norm_num⟩
  obtain ⟨N, out, a, -, -⟩ := C67_meeting_is_close solve hs 1 1 one_pos le_rfl _ _ (lineC_mono 0 3) (lineC_mono 3 0) _ _ hx0 hx1
  have hU : Upright 1 (lineC 0 3) (lineC 3 0) := by
    intro u v x0 x1 x0' x1' huv ⟨s, _, _, e⟩ ⟨s', _, _, e'⟩ _ _
    rw [lineC_eval] at e e'
    simp only [Pt.mk.injEq] at e e'
    left
    rw [abs_lt]
    constructor <;> linarith [e.1, e.2, e'.1, e'.2]
  exact ⟨solve, N, out, hs, a, fun n hn => by rw [C89_symmetric hs one_pos one_pos (lineC_mono 0 3) (lineC_mono 3 0) hU, a n hn]; rfl⟩

end Verif.Geom
