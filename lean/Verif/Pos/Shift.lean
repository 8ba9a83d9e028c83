import Verif.Pos.Groups

/-!
# Vertical translations (C40)
-/

namespace Verif.Pos
open Verif.Curve Verif.Geom Verif.Scan

/-! ## Translated objects -/

/-- A point, moved vertically. -/
def ptShift (d : ℝ) (p : Pt) : Pt := ⟨p.x, p.y + d⟩
def cubicShift (d : ℝ) (c : Cubic) : Cubic := ⟨ptShift d c.p0, ptShift d c.p1, ptShift d c.p2, ptShift d c.p3⟩
def segShift (d : ℝ) : Seg → Seg
  | .line p q => .line (ptShift d p) (ptShift d q)
  | .cubic c => .cubic (cubicShift d c)
def elShift (d : ℝ) : El → El
  | .line p => .line (ptShift d p)
  | .quad a p => .quad (ptShift d a) (ptShift d p)
  | .curve a b p => .curve (ptShift d a) (ptShift d b) (ptShift d p)
def pathShift (d : ℝ) (p : OPath) : OPath := ⟨ptShift d p.start, p.els.map (elShift d), p.copied⟩
def orderShift (d : ℝ) (c : CurveOrder ℝ) : CurveOrder ℝ := ⟨c.start + d, c.cmps.map fun e => ⟨e.stop + d, e.order⟩⟩
def recShift (d : ℝ) (r : Rec ℝ) : Rec ℝ := (r.1 + d, r.2)
def mapsShift (d : ℝ) (m : Maps ℝ) : Maps ℝ := ⟨fun i => (m.west i).map (recShift d), fun i => (m.east i).map (recShift d)⟩

/-- The input, moved vertically. -/
def Input.shift (d : ℝ) (I : Input) : Input where
  n := I.n
  seg i := segShift d (I.seg i)
  orig := I.orig
  first i := ptShift d (I.first i)
  second i := ptShift d (I.second i)
  cmp i j := orderShift d (I.cmp i j)
  maps := mapsShift d I.maps
  accuracy := I.accuracy
  solve := I.solve

/-! ## Curves -/

theorem solveT_shift (d : ℝ) (c : Cubic) (y : ℝ) : solveT (cubicShift d c) (y + d) = solveT c y := by
  unfold solveT
  simp only [cubicShift, ptShift, add_left_inj]
  have e3 : c.p3.y + d - 3 * (c.p2.y + d) + 3 * (c.p1.y + d) - (c.p0.y + d) = c.p3.y - 3 * c.p2.y + 3 * c.p1.y - c.p0.y := by ring
  have e2 : 3 * (c.p2.y + d - 2 * (c.p1.y + d) + (c.p0.y + d)) = 3 * (c.p2.y - 2 * c.p1.y + c.p0.y) := by ring
  have e1 : 3 * (c.p1.y + d - (c.p0.y + d)) = 3 * (c.p1.y - c.p0.y) := by ring
  have e0 : c.p0.y + d - (y + d) = c.p0.y - y := by ring
  rw [e3, e2, e1, e0]

theorem eval_shift (d : ℝ) (c : Cubic) (t : ℝ) : (cubicShift d c).eval t = ptShift d (c.eval t) := by
  ext <;> simp only [cubicShift, ptShift, Cubic.eval, bez3]
  ring

theorem deriv_shift (d : ℝ) (c : Cubic) : (cubicShift d c).deriv = c.deriv := by
  simp only [Cubic.deriv, cubicShift, ptShift, add_sub_add_right_eq_sub]

theorem derivAt_shift (d : ℝ) (c : Cubic) (t : ℝ) : (cubicShift d c).derivAt t = c.derivAt t := by
  simp only [Cubic.derivAt, deriv_shift]

theorem ySub_shift (d : ℝ) (c : Cubic) (y0 y1 : ℝ) : ySubsegment (cubicShift d c) (y0 + d) (y1 + d) = cubicShift d (ySubsegment c y0 y1) := by
  simp only [ySubsegment, Cubic.subsegment, solveT_shift, eval_shift, derivAt_shift]
  simp only [cubicShift, ptShift, Cubic.mk.injEq, Pt.mk.injEq, true_and, and_true]
  constructor <;> ring

theorem toCubic_shift (d : ℝ) (s : Seg) : (segShift d s).toCubic = cubicShift d s.toCubic := by
  cases s with
  | cubic c => rfl
  | line p q =>
    simp only [segShift, Seg.toCubic, cubicShift, ptShift, Cubic.mk.injEq, Pt.mk.injEq, true_and, and_true]
    constructor <;> ring

theorem isLine_shift (d : ℝ) (s : Seg) : isLine (segShift d s) = isLine s := by cases s <;> rfl

theorem stop_shift (d : ℝ) (p : OPath) : (pathShift d p).stop = ptShift d p.stop := by
  unfold OPath.stop pathShift
  simp only [List.getLast?_map]
  cases p.els.getLast? with
  | none => rfl
  | some e => cases e <;> rfl

theorem push_shift (d : ℝ) (p : OPath) (e : El) : (pathShift d p).push (elShift d e) = pathShift d (p.push e) := by
  simp [pathShift, OPath.push]

theorem nextSub_shift (d : ℝ) (s : Seg) (p : OPath) (y : ℝ) (q : Pt) :
    nextSub (segShift d s) (pathShift d p) (y + d) (ptShift d q) = cubicShift d (nextSub s p y q) := by
  unfold nextSub
  simp only [stop_shift, toCubic_shift, show (ptShift d p.stop).y = p.stop.y + d from rfl, ySub_shift, show (ptShift d q).y = q.y + d from rfl, add_left_inj]
  split <;> rfl

theorem recentred_shift (d : ℝ) (c : Cubic) (y0 y1 : ℝ) : recentred (cubicShift d c) (y0 + d) (y1 + d) = recentred c y0 y1 := by
  unfold recentred
  simp only [ySub_shift]
  simp only [cubicShift, ptShift, Cubic.mk.injEq, Pt.mk.injEq, true_and]
  refine ⟨?_, ?_, ?_, ?_⟩ <;> ring

theorem tryAll_shift (d : ℝ) (solve : ℝ → ℝ → ℝ → ℝ → List ℝ) (acc y0 y1 : ℝ) (cs : List Cubic) :
    tryAll solve acc (y0 + d) (y1 + d) (cs.map (cubicShift d)) = tryAll solve acc y0 y1 cs := by
  induction cs with
  | nil => rfl
  | cons c cs ih =>
    simp only [List.map_cons, tryAll, recentred_shift, ih]
    have : y1 + d ≤ y0 + d + acc ↔ y1 ≤ y0 + acc := by constructor <;> intro <;> linarith
    simp only [this]

theorem approximate_shift (d : ℝ) (solve : ℝ → ℝ → ℝ → ℝ → List ℝ) (acc : ℝ) (cs : List Cubic) (y0 : ℝ) : ∀ (n : ℕ) (y1 : ℝ),
    approximate solve acc (cs.map (cubicShift d)) (y0 + d) n (y1 + d) = (approximate solve acc cs y0 n y1).map fun r => (r.1 + d, r.2) := by
  intro n
  induction n with
  | zero => intro y1; rfl
  | succ n ih =>
    intro y1
    simp only [approximate, tryAll_shift]
    cases tryAll solve acc y0 y1 cs with
    | some l => rfl
    | none =>
      have : (y0 + d + (y1 + d)) / 2 = (y0 + y1) / 2 + d := by ring
      simp only [this, ih]

theorem update_shift (d : ℝ) (out : Nat → OPath) (o : Nat) (p : OPath) :
    Function.update (fun i => pathShift d (out i)) o (pathShift d p) = fun i => pathShift d (Function.update out o p i) := by
  funext i
  by_cases h : i = o
  · subst h; simp
  · simp [Function.update_of_ne h]

theorem pushQuads_shift (d y0 y1 : ℝ) : ∀ (l : List (EstParab × Nat)) (m : Option (ℝ × ℝ)) (out : Nat → OPath),
    pushQuads (y0 + d) (y1 + d) m l (fun i => pathShift d (out i)) = fun i => pathShift d (pushQuads y0 y1 m l out i) := by
  intro l
  induction l with
  | nil => intro m out; rfl
  | cons a l ih =>
    intro m out
    obtain ⟨q, o⟩ := a
    have e1 : y0 + d - (y0 + d + (y1 + d)) / 2 = y0 - (y0 + y1) / 2 := by ring
    have e2 : y1 + d - (y0 + d + (y1 + d)) / 2 = y1 - (y0 + y1) / 2 := by ring
    have e3 : (y0 + d + (y1 + d)) / 2 = (y0 + y1) / 2 + d := by ring
    simp only [pushQuads, e1, e2]
    rw [← ih, ← update_shift, ← push_shift]
    simp only [elShift, ptShift, e3]

theorem quadLoop_shift (d : ℝ) (I : Input) (os : List Nat) (y1 : ℝ) : ∀ (n : ℕ) (y0 : ℝ) (out : Nat → OPath),
    quadLoop (I.shift d) os (y1 + d) n (y0 + d) (fun i => pathShift d (out i)) = (quadLoop I os y1 n y0 out).map fun r i => pathShift d (r i) := by
  intro n
  induction n with
  | zero => intro y0 out; rfl
  | succ n ih =>
    intro y0 out
    simp only [quadLoop, add_lt_add_iff_right]
    by_cases h : y0 < y1
    · rw [if_pos h, if_pos h]
      have e : (os.map fun o => ((I.shift d).seg o).toCubic) = (os.map fun o => (I.seg o).toCubic).map (cubicShift d) := by
        simp [Input.shift, toCubic_shift]
      rw [e]
      have := approximate_shift d I.solve I.accuracy (os.map fun o => (I.seg o).toCubic) y0 n y1
      show (match approximate I.solve I.accuracy _ _ _ _ with | none => none | some (y, qs) => _) = _
      rw [this]
      cases approximate I.solve I.accuracy (os.map fun o => (I.seg o).toCubic) y0 n y1 with
      | none => rfl
      | some r =>
        simp only [Option.map_some]
        rw [pushQuads_shift, ih]
    · rw [if_neg h, if_neg h]; rfl

theorem ensureOne_shift (d : ℝ) (I : Input) (y0 : ℝ) (o : Nat) (p : OPath) :
    ensureOne (I.shift d) (y0 + d) o (pathShift d p) = pathShift d (ensureOne I y0 o p) := by
  have e : nextSub ((I.shift d).seg o) (pathShift d p) (y0 + d) ((I.shift d).second o) = cubicShift d (nextSub (I.seg o) p y0 (I.second o)) :=
    nextSub_shift d _ p y0 _
  have e2 : isLine ((I.shift d).seg o) = isLine (I.seg o) := isLine_shift d _
  simp only [ensureOne, stop_shift, e, e2]
  have e3 : (ptShift d p.stop).y < y0 + d ↔ p.stop.y < y0 := by simp [ptShift]
  simp only [e3]
  by_cases h : p.stop.y < y0
  · rw [if_pos h, if_pos h]
    by_cases hl : isLine (I.seg o) = true
    · rw [if_pos hl, if_pos hl]; simp [pathShift, OPath.push, elShift, Input.shift]
    · rw [if_neg hl, if_neg hl]; simp [pathShift, OPath.push, elShift, cubicShift]
  · rw [if_neg h, if_neg h]

theorem ensure_shift (d : ℝ) (I : Input) (y0 : ℝ) : ∀ (os : List Nat) (out : Nat → OPath),
    ensure (I.shift d) (y0 + d) os (fun i => pathShift d (out i)) = fun i => pathShift d (ensure I y0 os out i) := by
  intro os
  induction os with
  | nil => intro out; rfl
  | cons o os ih =>
    intro out
    simp only [ensure]
    rw [ensureOne_shift, update_shift, ih]

theorem transversalAfter_shift (d : ℝ) (l r : Cubic) (y : ℝ) : transversalAfter (cubicShift d l) (cubicShift d r) (y + d) = transversalAfter l r y := by
  simp only [transversalAfter, solveT_shift, deriv_shift]
  simp only [cubicShift, ptShift, add_sub_add_right_eq_sub]

theorem refl_shift (d : ℝ) (c : Cubic) : (cubicShift d c).refl = cubicShift (-d) c.refl := by
  simp only [cubicShift, ptShift, Cubic.refl, Pt.refl, Cubic.mk.injEq, Pt.mk.injEq, true_and]
  refine ⟨?_, ?_, ?_, ?_⟩ <;> ring

theorem transversalBefore_shift (d : ℝ) (l r : Cubic) (y : ℝ) : transversalBefore (cubicShift d l) (cubicShift d r) (y + d) = transversalBefore l r y := by
  simp only [transversalBefore, refl_shift]
  rw [show -(y + d) = -y + -d by ring, transversalAfter_shift]

theorem separates_shift (d : ℝ) (I : Input) (y0 y1 : ℝ) (os : List Nat) (out : Nat → OPath) :
    separates (I.shift d) (y0 + d) (y1 + d) os (fun i => pathShift d (out i)) = separates I y0 y1 os out := by
  have e : ∀ o p y, nextSub ((I.shift d).seg o) (pathShift d p) (y + d) ((I.shift d).second o) = cubicShift d (nextSub (I.seg o) p y (I.second o)) :=
    fun o p y => nextSub_shift d _ p y _
  have e2 : ∀ o, ((I.shift d).second o).y = (I.second o).y + d := fun _ => rfl
  have e3 : ∀ p y, (ptShift d p).y = y + d ↔ p.y = y := fun p y => by simp [ptShift]
  unfold separates
  split
  · simp only [e, transversalAfter_shift, transversalBefore_shift, stop_shift, e2, e3, add_left_inj]
  · rfl

theorem allClose_shift (d : ℝ) (I : Input) (n : ℕ) (os : List Nat) (y0 y1 : ℝ) (out : Nat → OPath) :
    allClose (I.shift d) n os (y0 + d) (y1 + d) (fun i => pathShift d (out i)) = (allClose I n os y0 y1 out).map fun r i => pathShift d (r i) := by
  have e2 : ∀ o, isLine ((I.shift d).seg o) = isLine (I.seg o) := fun o => isLine_shift d _
  unfold allClose
  simp only [e2, separates_shift, ensure_shift, quadLoop_shift]
  by_cases h1 : (os.all fun o => isLine (I.seg o)) = true
  · rw [if_pos h1, if_pos h1]; rfl
  · rw [if_neg h1, if_neg h1]
    by_cases h2 : separates I y0 y1 os out = true
    · rw [if_pos h2, if_pos h2]; rfl
    · rw [if_neg h2, if_neg h2]

/-! ## Orders and neighbours -/

def pieceShift (d : ℝ) (p : Piece ℝ) : Piece ℝ := ⟨p.lo + d, p.hi + d, p.order⟩

theorem iter_shift (d : ℝ) (c : CurveOrder ℝ) : (orderShift d c).iter = c.iter.map (pieceShift d) := by
  obtain ⟨s, l⟩ := c
  simp only [CurveOrder.iter, orderShift]
  induction l generalizing s with
  | nil => rfl
  | cons e l ih => simp only [List.map_cons, pieces]; rw [ih e.stop]; rfl

theorem pieceAfter_shift (d : ℝ) (c : CurveOrder ℝ) (y : ℝ) : pieceAfter (orderShift d c) (y + d) = (pieceAfter c y).map (pieceShift d) := by
  unfold pieceAfter
  rw [iter_shift, List.find?_map]
  congr 2
  funext p
  simp [pieceShift]

/-- A height or infinity, moved. -/
noncomputable def topShift (d : ℝ) (b : WithTop ℝ) : WithTop ℝ := b.map (· + d)

theorem topShift_lt (d y : ℝ) (b : WithTop ℝ) : ((y + d : ℝ) : WithTop ℝ) < topShift d b ↔ (y : WithTop ℝ) < b := by
  cases b with
  | top => simp [topShift]
  | coe b => simp only [topShift, WithTop.map_coe, WithTop.coe_lt_coe]; exact add_lt_add_iff_right d

theorem topShift_le (d y : ℝ) (b : WithTop ℝ) : topShift d b ≤ ((y + d : ℝ) : WithTop ℝ) ↔ b ≤ (y : WithTop ℝ) := by
  rw [← not_lt, ← not_lt, topShift_lt]

theorem recs_shift (d : ℝ) (recs : List (Rec ℝ)) : Scan.iter (recs.map (recShift d)) = (Scan.iter recs).map fun p => (p.1 + d, topShift d p.2.1, p.2.2) := by
  unfold Scan.iter
  have : (((recs.map (recShift d)).map fun r : Rec ℝ => ((r.1 : ℝ) : WithTop ℝ)).drop 1) ++ [⊤] =
      ((((recs.map fun r : Rec ℝ => ((r.1 : ℝ) : WithTop ℝ)).drop 1) ++ [⊤]).map (topShift d)) := by
    simp only [List.map_append, List.map_drop, List.map_map, List.map_cons, List.map_nil]
    rfl
  dsimp only
  rw [this, List.zip_map, List.map_map, List.map_map]
  rfl

theorem neighborAfter_shift (d : ℝ) (recs : List (Rec ℝ)) (y : ℝ) : neighborAfter (recs.map (recShift d)) (y + d) = neighborAfter recs y := by
  unfold neighborAfter
  rw [recs_shift, List.takeWhile_map, List.find?_map]
  have e1 : ((fun p : ℝ × WithTop ℝ × Option Nat => decide (p.1 ≤ y + d)) ∘ fun p : ℝ × WithTop ℝ × Option Nat => (p.1 + d, topShift d p.2.1, p.2.2)) =
      fun p => decide (p.1 ≤ y) := by
    funext p; simp
  have e2 : ((fun p : ℝ × WithTop ℝ × Option Nat => decide (((y + d : ℝ) : WithTop ℝ) < p.2.1)) ∘ fun p : ℝ × WithTop ℝ × Option Nat => (p.1 + d, topShift d p.2.1, p.2.2)) =
      fun p => decide ((y : WithTop ℝ) < p.2.1) := by
    funext p; simp only [Function.comp_apply, topShift_lt]
  rw [e1, e2, Option.bind_map]
  rfl

theorem closeAfter_shift (d : ℝ) (recs : List (Rec ℝ)) (cmp : Nat → CurveOrder ℝ) (y : ℝ) :
    closeAfter (recs.map (recShift d)) (fun o => orderShift d (cmp o)) (y + d) = (closeAfter recs cmp y).map (· + d) := by
  unfold closeAfter
  rw [recs_shift, List.findSome?_map, List.map_findSome?]
  congr 1
  funext p
  simp only [Function.comp_apply, topShift_le]
  by_cases h : p.2.1 ≤ (y : WithTop ℝ)
  · rw [if_pos h, if_pos h]; rfl
  · rw [if_neg h, if_neg h]
    cases p.2.2 with
    | none => rfl
    | some o =>
      simp only [Option.bind_some]
      rw [iter_shift, List.takeWhile_map, List.filter_map, List.find?_map, Option.map_map, Option.map_map]
      have e1 : ((fun q : Piece ℝ => decide ((q.lo : WithTop ℝ) < topShift d p.2.1)) ∘ pieceShift d) = fun q => decide ((q.lo : WithTop ℝ) < p.2.1) := by
        funext q; simp only [Function.comp_apply, pieceShift, topShift_lt]
      have e2 : ((fun q : Piece ℝ => decide (q.order = Order.ish)) ∘ pieceShift d) = fun q => decide (q.order = Order.ish) := rfl
      have e3 : ((fun q : Piece ℝ => decide (y + d ≤ q.lo)) ∘ pieceShift d) = fun q => decide (y ≤ q.lo) := by
        funext q; simp [pieceShift]
      rw [e1, e2, e3]
      rfl

theorem westScan_shift (d : ℝ) (I : Input) (y0 : ℝ) : ∀ (k : ℕ) (cur : Nat) (y1 : ℝ) (scan : List Nat),
    westScan (I.shift d) (y0 + d) k cur (y1 + d) scan = (westScan I y0 k cur y1 scan).map fun r => (r.1 + d, r.2) := by
  intro k
  induction k with
  | zero => intro cur y1 scan; rfl
  | succ k ih =>
    intro cur y1 scan
    have e1 : neighborAfter ((I.shift d).maps.west cur) (y0 + d) = neighborAfter (I.maps.west cur) y0 := neighborAfter_shift d _ _
    have e2 : ∀ a b, pieceAfter ((I.shift d).cmp ((I.shift d).orig a) ((I.shift d).orig b)) (y0 + d) = (pieceAfter (I.cmp (I.orig a) (I.orig b)) y0).map (pieceShift d) :=
      fun a b => pieceAfter_shift d _ _
    have e3 : closeAfter ((I.shift d).maps.west cur) (fun o => (I.shift d).cmp ((I.shift d).orig cur) ((I.shift d).orig o)) (y0 + d) =
        (closeAfter (I.maps.west cur) (fun o => I.cmp (I.orig cur) (I.orig o)) y0).map (· + d) := closeAfter_shift d _ _ _
    have e4 : ∀ a, ((I.shift d).second a).y = (I.second a).y + d := fun _ => rfl
    simp only [westScan, e1, e2, e3, e4]
    cases neighborAfter (I.maps.west cur) y0 with
    | none => rfl
    | some nbr =>
      simp only
      cases pieceAfter (I.cmp (I.orig nbr) (I.orig cur)) y0 with
      | none => rfl
      | some p =>
        simp only [Option.map_some, show (pieceShift d p).order = p.order from rfl, show (pieceShift d p).hi = p.hi + d from rfl]
        by_cases h : p.order = .left
        · rw [if_pos h, if_pos h]
          cases closeAfter (I.maps.west cur) (fun o => I.cmp (I.orig cur) (I.orig o)) y0 with
          | none => rfl
          | some h => simp only [Option.map_some, max_add_add_right, min_add_add_right]
        · rw [if_neg h, if_neg h, min_add_add_right, min_add_add_right, ih]

theorem eastScan_shift (d : ℝ) (I : Input) (y0 : ℝ) : ∀ (k : ℕ) (cur : Nat) (y1 : ℝ) (scan : List Nat),
    eastScan (I.shift d) (y0 + d) k cur (y1 + d) scan = (eastScan I y0 k cur y1 scan).map fun r => (r.1 + d, r.2) := by
  intro k
  induction k with
  | zero => intro cur y1 scan; rfl
  | succ k ih =>
    intro cur y1 scan
    have e1 : neighborAfter ((I.shift d).maps.east cur) (y0 + d) = neighborAfter (I.maps.east cur) y0 := neighborAfter_shift d _ _
    have e2 : ∀ a b, pieceAfter ((I.shift d).cmp ((I.shift d).orig a) ((I.shift d).orig b)) (y0 + d) = (pieceAfter (I.cmp (I.orig a) (I.orig b)) y0).map (pieceShift d) :=
      fun a b => pieceAfter_shift d _ _
    have e3 : closeAfter ((I.shift d).maps.east cur) (fun o => (I.shift d).cmp ((I.shift d).orig cur) ((I.shift d).orig o)) (y0 + d) =
        (closeAfter (I.maps.east cur) (fun o => I.cmp (I.orig cur) (I.orig o)) y0).map (· + d) := closeAfter_shift d _ _ _
    have e4 : ∀ a, ((I.shift d).second a).y = (I.second a).y + d := fun _ => rfl
    simp only [eastScan, e1, e2, e3, e4]
    cases neighborAfter (I.maps.east cur) y0 with
    | none => rfl
    | some nbr =>
      simp only
      cases pieceAfter (I.cmp (I.orig cur) (I.orig nbr)) y0 with
      | none => rfl
      | some p =>
        simp only [Option.map_some, show (pieceShift d p).order = p.order from rfl, show (pieceShift d p).hi = p.hi + d from rfl]
        by_cases h : p.order = .left
        · rw [if_pos h, if_pos h]
          cases closeAfter (I.maps.east cur) (fun o => I.cmp (I.orig cur) (I.orig o)) y0 with
          | none => rfl
          | some h => simp only [Option.map_some, max_add_add_right, min_add_add_right]
        · rw [if_neg h, if_neg h, min_add_add_right, min_add_add_right, ih]

/-! ## The queue -/

def entryShift (d : ℝ) (e : ℝ × Nat) : ℝ × Nat := (e.1 + d, e.2)

theorem entryShift_inj (d : ℝ) : Function.Injective (entryShift d) := by
  rintro ⟨a, i⟩ ⟨b, j⟩ h
  simp only [entryShift, Prod.mk.injEq, add_left_inj] at h
  exact Prod.ext h.1 h.2

theorem greater_shift (d : ℝ) (a b : ℝ × Nat) : greater (entryShift d a) (entryShift d b) = greater a b := by
  simp [greater, entryShift]

theorem greatest_shift (d : ℝ) : ∀ (l : List (ℝ × Nat)) (e : ℝ × Nat), greatest (entryShift d e) (l.map (entryShift d)) = entryShift d (greatest e l) := by
  intro l
  induction l with
  | nil => intro e; rfl
  | cons f l ih =>
    intro e
    simp only [List.map_cons, greatest, greater_shift]
    rw [← ih]
    split <;> rfl

theorem popMax_shift (d : ℝ) (q : List (ℝ × Nat)) : popMax (q.map (entryShift d)) = (popMax q).map fun r => (entryShift d r.1, r.2.map (entryShift d)) := by
  cases q with
  | nil => rfl
  | cons e l =>
    simp only [List.map_cons, popMax, greatest_shift, Option.map_some]
    rw [List.map_erase (entryShift_inj d)]
    rfl

/-! ## The main loop -/

theorem handle_mono {I : Input} {n m : ℕ} (h : n ≤ m) {e : ℝ × Nat} {s t : PState} (hn : handle I n e s = some t) : handle I m e s = some t := by
  unfold handle at hn ⊢
  by_cases hl : e.1 < s.lastY e.2
  · rw [if_pos hl] at hn ⊢; exact hn
  · rw [if_neg hl] at hn ⊢
    revert hn
    cases westScan I e.1 I.n e.2 (I.second e.2).y [e.2] with
    | none => exact id
    | some r =>
      simp only
      cases eastScan I e.1 I.n e.2 r.1 [] with
      | none => exact id
      | some r' =>
        simp only
        unfold place
        by_cases h1 : (r.2.reverse ++ r'.2).length = 1
        · simp only [h1, if_true]; exact id
        · simp only [h1, if_false]
          cases ha : allClose I n (r.2.reverse ++ r'.2) e.1 r'.1 s.out with
          | none => simp
          | some out => rw [allClose_mono I h ha]; exact id

theorem handle_inv {I : Input} (ok : I.Ok) {n : ℕ} {e : ℝ × Nat} {s t : PState} (ha : Alive I e.2 e.1) (hs : SInv I s) (h : handle I n e s = some t) : SInv I t := by
  rcases handle_spec ok ha s with ⟨_, h2⟩ | ⟨_, y1, nbrs, s', N, h2, h3, h4, h5, h6, h7⟩
  · rw [h2 n] at h
    exact Option.some.inj h ▸ hs
  · have := handle_mono (le_max_left n N) h
    rw [h7 _ (le_max_right n N)] at this
    obtain rfl := Option.some.inj this
    refine ⟨?_, h4.path h3 hs.path⟩
    intro f hf
    rw [h6] at hf
    rcases List.mem_append.1 hf with hf | hf
    · exact hs.queue f hf
    · obtain ⟨i, hi, rfl⟩ := List.mem_map.1 hf
      rw [List.mem_filter] at hi
      have := h3.alive i hi.1
      exact ⟨⟨this.1, this.2.1.trans h3.lt.le, by simpa using hi.2⟩, h3.height⟩

/-- Corresponding states of the layouts of an input and of the input moved by `d`. -/
structure Moved (d : ℝ) (s s' : PState) : Prop where
  out : s'.out = fun i => pathShift d (s.out i)
  queue : s'.queue = s.queue.map (entryShift d)
  lastY : ∀ o, s'.lastY o = s.lastY o + d ∨ (s.lastY o = 0 ∧ s'.lastY o = 0)

/-- Both have no value, or both have, and the values correspond. -/
def Both {α β : Type} (R : α → β → Prop) : Option α → Option β → Prop
  | none, none => True
  | some a, some b => R a b
  | _, _ => False

theorem place_shift (d : ℝ) (I : Input) (n : ℕ) (idx : Nat) (y0 y1 : ℝ) (nbrs : List Nat) {s s' : PState} (h : Moved d s s') :
    Both (Moved d) (place I n idx y0 y1 nbrs s) (place (I.shift d) n idx (y0 + d) (y1 + d) nbrs s') := by
  have key : (if nbrs.length = 1 then
        some (open Classical in if y0 + d = y1 + d then Function.update s'.out idx { (s'.out idx).push (.line ((I.shift d).second idx)) with copied := some (s'.out idx).els.length } else s'.out)
      else allClose (I.shift d) n nbrs (y0 + d) (y1 + d) s'.out) =
      (if nbrs.length = 1 then
        some (open Classical in if y0 = y1 then Function.update s.out idx { (s.out idx).push (.line (I.second idx)) with copied := some (s.out idx).els.length } else s.out)
      else allClose I n nbrs y0 y1 s.out).map fun r i => pathShift d (r i) := by
    rw [h.out, allClose_shift]
    by_cases h1 : nbrs.length = 1
    · rw [if_pos h1, if_pos h1, Option.map_some]
      congr 1
      by_cases h2 : y0 = y1
      · rw [if_pos h2, if_pos (by rw [h2]), ← update_shift]
        congr 1
        simp [pathShift, OPath.push, elShift, Input.shift]
      · rw [if_neg h2, if_neg (by simpa using h2)]
    · rw [if_neg h1, if_neg h1]
  unfold place
  simp only [key]
  cases (if nbrs.length = 1 then
        some (open Classical in if y0 = y1 then Function.update s.out idx { (s.out idx).push (.line (I.second idx)) with copied := some (s.out idx).els.length } else s.out)
      else allClose I n nbrs y0 y1 s.out) with
  | none => trivial
  | some out =>
    simp only [Option.map_some, Both]
    refine ⟨rfl, ?_, ?_⟩
    · simp only [h.queue, List.map_append, List.map_map]
      congr 1
      have : (fun i => (open Classical in decide (y1 + d < ((I.shift d).second i).y))) = fun i => open Classical in decide (y1 < (I.second i).y) := by
        funext i; simp [Input.shift, ptShift]
      rw [this]
      rfl
    · intro o
      by_cases ho : o ∈ nbrs
      · simp only [ho, if_true, true_or]
      · simp only [ho, if_false]; exact h.lastY o

theorem handle_shift (d : ℝ) (I : Input) (n : ℕ) (e : ℝ × Nat) (he : 0 ≤ e.1) (hd : 0 ≤ e.1 + d) {s s' : PState} (h : Moved d s s') :
    Both (Moved d) (handle I n e s) (handle (I.shift d) n (entryShift d e) s') := by
  have hcond : (entryShift d e).1 < s'.lastY (entryShift d e).2 ↔ e.1 < s.lastY e.2 := by
    show e.1 + d < s'.lastY e.2 ↔ _
    rcases h.lastY e.2 with h1 | ⟨h1, h2⟩
    · rw [h1]; exact add_lt_add_iff_right d
    · rw [h1, h2]; exact iff_of_false (not_lt.2 hd) (not_lt.2 he)
  unfold handle
  by_cases hl : e.1 < s.lastY e.2
  · rw [if_pos hl, if_pos (hcond.2 hl)]; exact h
  · rw [if_neg hl, if_neg (fun h => hl (hcond.1 h))]
    have e1 := westScan_shift d I e.1 I.n e.2 (I.second e.2).y [e.2]
    have e2 : westScan (I.shift d) (entryShift d e).1 (I.shift d).n (entryShift d e).2 ((I.shift d).second (entryShift d e).2).y [(entryShift d e).2] =
      (westScan I e.1 I.n e.2 (I.second e.2).y [e.2]).map fun r => (r.1 + d, r.2) := e1
    rw [e2]
    cases westScan I e.1 I.n e.2 (I.second e.2).y [e.2] with
    | none => trivial
    | some r =>
      simp only [Option.map_some]
      have e3 : eastScan (I.shift d) (entryShift d e).1 (I.shift d).n (entryShift d e).2 (r.1 + d) [] =
        (eastScan I e.1 I.n e.2 r.1 []).map fun r => (r.1 + d, r.2) := eastScan_shift d I e.1 I.n e.2 r.1 []
      rw [e3]
      cases eastScan I e.1 I.n e.2 r.1 [] with
      | none => trivial
      | some r' => exact place_shift d I n e.2 e.1 r'.1 _ h

theorem mainLoop_shift {d : ℝ} {I : Input} (ok : I.Ok) (h0 : ∀ i < I.n, 0 ≤ (I.first i).y) (h1 : ∀ i < I.n, 0 ≤ (I.first i).y + d) :
    ∀ (n : ℕ) {s s' : PState}, SInv I s → Moved d s s' → Both (Moved d) (mainLoop I n s) (mainLoop (I.shift d) n s') := by
  intro n
  induction n with
  | zero => intro s s' _ _; trivial
  | succ n ih =>
    intro s s' hs h
    simp only [mainLoop]
    rw [h.queue, popMax_shift]
    cases hq : popMax s.queue with
    | none => exact h
    | some r =>
      obtain ⟨e, q⟩ := r
      simp only [Option.map_some]
      obtain ⟨hperm, _⟩ := popMax_spec hq
      have ha := hs.queue e (hperm.mem_iff.2 (by simp))
      have hb := handle_shift d I n e ((h0 _ ha.1.1).trans ha.1.2.1) (by linarith [h1 _ ha.1.1, ha.1.2.1])
        (s := { s with queue := q }) (s' := { s' with queue := q.map (entryShift d) }) ⟨h.out, rfl, h.lastY⟩
      revert hb
      cases ht : handle I n e { s with queue := q } with
      | none =>
        cases handle (I.shift d) n (entryShift d e) { s' with queue := q.map (entryShift d) } with
        | none => exact id
        | some t' => exact False.elim
      | some t =>
        cases handle (I.shift d) n (entryShift d e) { s' with queue := q.map (entryShift d) } with
        | none => exact False.elim
        | some t' =>
          have hs' : SInv I { s with queue := q } := ⟨fun f (hf : f ∈ q) => hs.queue f (hperm.mem_iff.2 (by simp [hf])), hs.path⟩
          exact fun hb => ih (handle_inv ok ha.1 hs' ht) hb

theorem finish_shift (d : ℝ) (I : Input) (o : Nat) (p : OPath) : finish (I.shift d) o (pathShift d p) = pathShift d (finish I o p) := by
  have e : nextSub ((I.shift d).seg o) (pathShift d p) ((I.shift d).second o).y ((I.shift d).second o) = cubicShift d (nextSub (I.seg o) p (I.second o).y (I.second o)) :=
    nextSub_shift d _ p _ _
  have e2 : isLine ((I.shift d).seg o) = isLine (I.seg o) := isLine_shift d _
  have e3 : (ptShift d p.stop).y < ((I.shift d).second o).y ↔ p.stop.y < (I.second o).y := by simp [ptShift, Input.shift]
  unfold finish
  simp only [stop_shift, e, e2, e3]
  by_cases h : p.stop.y < (I.second o).y
  · rw [if_pos h, if_pos h]
    by_cases hl : isLine (I.seg o) = true
    · rw [if_pos hl, if_pos hl]; simp [pathShift, OPath.push, elShift, Input.shift]
    · rw [if_neg hl, if_neg hl]; simp [pathShift, OPath.push, elShift, cubicShift]
  · rw [if_neg h, if_neg h]
    have : (pathShift d p).els.getLast? = p.els.getLast?.map (elShift d) := by simp [pathShift]
    rw [this]
    cases p.els.getLast? with
    | none => rfl
    | some e =>
      simp only [Option.map_some, pathShift, List.map_append, List.map_dropLast]
      cases e <;> rfl

theorem initState_shift (d : ℝ) (I : Input) : Moved d (initState I) (initState (I.shift d)) := by
  refine ⟨?_, ?_, fun o => .inr ⟨rfl, rfl⟩⟩
  · funext i
    simp only [initState, initPath]
    have : ((I.shift d).first i).y = ((I.shift d).second i).y ↔ (I.first i).y = (I.second i).y := by simp [Input.shift, ptShift]
    simp only [this]
    split <;> rfl
  · simp only [initState, List.map_map]
    have : (fun i => (open Classical in decide (((I.shift d).first i).y ≠ ((I.shift d).second i).y))) = fun i => open Classical in decide ((I.first i).y ≠ (I.second i).y) := by
      funext i; simp [Input.shift, ptShift]
    rw [this]
    rfl

/-- **C40.** Moving the input vertically moves the output with it, as long as no output segment begins above the height zero, before or after the move
(heights grow downwards). -/
theorem C40_translation_partial {d : ℝ} {I : Input} (ok : I.Ok) (h0 : ∀ i < I.n, 0 ≤ (I.first i).y) (h1 : ∀ i < I.n, 0 ≤ ((I.shift d).first i).y) (n : ℕ) :
    computePositions (I.shift d) n = (computePositions I n).map fun out i => pathShift d (out i) := by
  have := mainLoop_shift ok h0 h1 n (initState_inv ok) (initState_shift d I)
  unfold computePositions
  revert this
  cases mainLoop I n (initState I) with
  | none =>
    cases mainLoop (I.shift d) n (initState (I.shift d)) with
    | none => intro; rfl
    | some t' => exact False.elim
  | some t =>
    cases mainLoop (I.shift d) n (initState (I.shift d)) with
    | none => exact False.elim
    | some t' =>
      intro h
      simp only [Option.map_some, h.out, finish_shift]

end Verif.Pos
