import Verif.Sweep.OrderMain
import Verif.Sweep.Instances
import Mathlib.Tactic.Linarith
import Mathlib.Tactic.Ring
import Mathlib.Tactic.SplitIfs
import Mathlib.Algebra.Order.Ring.Int

/-!
# C62: straight segments, and a sweep that misses a crossing

The comparisons of `linesEnv` are sound. So `C62_order` applies to every sweep of straight segments all of whose intersections are safe
(`three_order`), and it fails for one in which an intersection is not safe (`C62_missed_crossing`).
-/

namespace Verif.Sweep
open Verif.Curve Verif.Range Verif.Topo Verif.Scan Verif.Merge
set_option linter.unusedSectionVars false

/-- The end points of the segment are consistent. -/
structure Ln.Valid (s : Ln) : Prop where
  down : s.y0 ≤ s.y1
  line : s.y0 ≠ s.y1 → s.x1 = s.x0 + s.slope * (s.y1 - s.y0)

theorem ediv_pos_le {a b : Int} (hb : 0 < b) : b * (a / b) ≤ a := by
  have := Int.mul_ediv_add_emod a b
  have := Int.emod_nonneg a hb.ne'
  omega

theorem ediv_neg_le {a b : Int} (hb : b < 0) : b * (a / b) ≤ a := by
  have := Int.mul_ediv_add_emod a b
  have := Int.emod_nonneg a hb.ne
  omega

theorem Ln.diff (a b : Ln) (ha : a.y0 ≠ a.y1) (hb : b.y0 ≠ b.y1) (s t : Int) :
    a.at t - b.at t = (a.at s - b.at s) + (a.slope - b.slope) * (t - s) := by
  unfold Ln.at
  rw [if_neg ha, if_neg hb, if_neg ha, if_neg hb]
  ring

/-- The break points of the comparison. -/
theorem ediv_break {B d T : Int} (hT : 0 < T) (hB : B ≠ 0) (h1 : B ≤ 2 * T) (h2 : -(2 * T) ≤ B) :
    (0 < B ∧ (-T - d) / B < (T - d) / B) ∨ (B < 0 ∧ (T - d) / B < (-T - d) / B) := by
  have e1 := Int.mul_ediv_add_emod (-T - d) B
  have e2 := Int.mul_ediv_add_emod (T - d) B
  have e3 := Int.emod_nonneg (-T - d) hB
  have e4 := Int.emod_nonneg (T - d) hB
  have e5 := Int.emod_lt_abs (-T - d) hB
  have e6 := Int.emod_lt_abs (T - d) hB
  generalize (-T - d) / B = p at *
  generalize (T - d) / B = q at *
  rcases lt_or_gt_of_ne hB with h | h
  · right
    refine ⟨h, ?_⟩
    rw [abs_of_neg h] at e5 e6
    by_contra hc
    rw [not_lt] at hc
    have : 0 ≤ (q - p) * (-B) := mul_nonneg (by omega) (by omega)
    nlinarith
  · left
    refine ⟨h, ?_⟩
    rw [abs_of_pos h] at e5 e6
    by_contra hc
    rw [not_lt] at hc
    have : 0 ≤ (p - q) * B := mul_nonneg (by omega) (by omega)
    nlinarith

/-- A comparison with three pieces, some of which may be missing. -/
theorem three_pieces {lo c1 c2 hi : Int} (f l : Order) (hf : f ≠ .ish) (hl : l ≠ .ish) (h0 : lo < hi) (h1 : lo ≤ c1) (h2 : c1 ≤ c2) (h3 : c2 ≤ hi)
    (h4 : c1 = c2 → c1 = lo ∨ c1 = hi) (c : CurveOrder Int)
    (hc : c = ⟨lo, (if lo < c1 then [⟨c1, f⟩] else []) ++ (if c1 < c2 then [⟨c2, .ish⟩] else []) ++ (if c2 < hi then [⟨hi, l⟩] else [])⟩) :
    WF c ∧ c.start = lo ∧ EndsAt c hi ∧ ∀ p ∈ c.iter, (p = ⟨lo, c1, f⟩ ∧ lo < c1) ∨ (p = ⟨c1, c2, .ish⟩ ∧ c1 < c2) ∨ (p = ⟨c2, hi, l⟩ ∧ c2 < hi) := by
  subst hc
  unfold WF Curve.EndsAt
  by_cases g1 : lo < c1 <;> by_cases g2 : c1 < c2 <;> by_cases g3 : c2 < hi <;> simp only [g1, g2, g3, if_true, if_false]
  · exact ⟨⟨by simp, rfl, h1, ⟨rfl, hf, .inr rfl⟩, rfl, h2, ⟨rfl, hl.symm, .inl rfl⟩, rfl, h3⟩, trivial, ⟨_, rfl, rfl⟩, by simp [CurveOrder.iter, pieces]⟩
  · obtain rfl : c2 = hi := by omega
    exact ⟨⟨by simp, rfl, h1, ⟨rfl, hf, .inr rfl⟩, rfl, h2⟩, trivial, ⟨_, rfl, rfl⟩, by simp [CurveOrder.iter, pieces]⟩
  · exfalso; omega
  · obtain rfl : c1 = hi := by omega
    exact ⟨⟨by simp, rfl, h1⟩, trivial, ⟨_, rfl, rfl⟩, by simp [CurveOrder.iter, pieces]⟩
  · obtain rfl : c1 = lo := by omega
    exact ⟨⟨by simp, rfl, h2, ⟨rfl, hl.symm, .inl rfl⟩, rfl, h3⟩, trivial, ⟨_, rfl, rfl⟩, by simp [CurveOrder.iter, pieces]⟩
  · obtain rfl : c1 = lo := by omega
    obtain rfl : c2 = hi := by omega
    exact ⟨⟨by simp, rfl, h2⟩, trivial, ⟨_, rfl, rfl⟩, by simp [CurveOrder.iter, pieces]⟩
  · obtain rfl : c1 = lo := by omega
    obtain rfl : c2 = c1 := by omega
    exact ⟨⟨by simp, rfl, h3⟩, trivial, ⟨_, rfl, rfl⟩, by simp [CurveOrder.iter, pieces]⟩
  · exfalso; omega

/-- What the comparison of two segments says. -/
theorem compare_spec {a b : Ln} {T : Int} (hT : 0 < T) (h1 : a.slope - b.slope ≤ 2 * T)
    (h2 : -(2 * T) ≤ a.slope - b.slope) (hlh : max a.y0 b.y0 ≤ min a.y1 b.y1) :
    WF (Ln.compare T a b) ∧ (Ln.compare T a b).start = max a.y0 b.y0 ∧ EndsAt (Ln.compare T a b) (min a.y1 b.y1) ∧
    ∀ p ∈ (Ln.compare T a b).iter, ∀ t, p.lo ≤ t → t ≤ p.hi →
      (p.order ≠ .right → a.at t ≤ b.at t + T) ∧ (p.order = .left → a.at t + T ≤ b.at t) := by
  unfold Ln.compare
  dsimp only
  by_cases h : a.slope - b.slope = 0 ∨ min a.y1 b.y1 ≤ max a.y0 b.y0
  · rw [if_pos h]
    refine ⟨⟨by simp, by simpa [CurveOrder.iter, pieces, Tiled] using hlh⟩, rfl, ⟨_, rfl, rfl⟩, ?_⟩
    intro p hp t h3 h4
    simp only [CurveOrder.iter, pieces, List.mem_singleton] at hp
    subst hp
    dsimp only at h3 h4 ⊢
    have hd : a.at t - b.at t = a.at (max a.y0 b.y0) - b.at (max a.y0 b.y0) := by
      rcases eq_or_lt_of_le hlh with h5 | h5
      · have : t = max a.y0 b.y0 := by omega
        rw [this]
      · have h6 : a.slope - b.slope = 0 := by
          rcases h with h | h
          · exact h
          · omega
        rw [Ln.diff a b (by omega) (by omega) (max a.y0 b.y0) t, h6]; ring
    constructor
    · intro h5
      split_ifs at h5 with h6 h7 <;> first | omega | exact absurd rfl h5
    · intro h5
      split_ifs at h5 with h6 h7
      omega
  · rw [if_neg h]
    rw [not_or] at h
    obtain ⟨hB, hlt⟩ := h
    rw [not_le] at hlt
    have hd : ∀ t, a.at t - b.at t = (a.at (max a.y0 b.y0) - b.at (max a.y0 b.y0)) + (a.slope - b.slope) * (t - max a.y0 b.y0) :=
      fun t => Ln.diff a b (by omega) (by omega) _ t
    have hbr := ediv_break (d := a.at (max a.y0 b.y0) - b.at (max a.y0 b.y0)) hT hB h1 h2
    have hp : (a.slope - b.slope) * ((-T - (a.at (max a.y0 b.y0) - b.at (max a.y0 b.y0))) / (a.slope - b.slope)) ≤
        -T - (a.at (max a.y0 b.y0) - b.at (max a.y0 b.y0)) := by
      rcases lt_or_gt_of_ne hB with h | h
      · exact ediv_neg_le h
      · exact ediv_pos_le h
    have hq : (a.slope - b.slope) * ((T - (a.at (max a.y0 b.y0) - b.at (max a.y0 b.y0))) / (a.slope - b.slope)) ≤
        T - (a.at (max a.y0 b.y0) - b.at (max a.y0 b.y0)) := by
      rcases lt_or_gt_of_ne hB with h | h
      · exact ediv_neg_le h
      · exact ediv_pos_le h
    generalize max a.y0 b.y0 = lo at *
    generalize min a.y1 b.y1 = hi at *
    generalize a.at lo - b.at lo = d at *
    generalize a.slope - b.slope = B at *
    generalize (-T - d) / B = p at *
    generalize (T - d) / B = q at *
    rcases hbr with ⟨hB0, hpq⟩ | ⟨hB0, hpq⟩
    · have e1 : min (lo + p) (lo + q) = lo + p := by omega
      have e2 : max (lo + p) (lo + q) = lo + q := by omega
      rw [e1, e2, if_pos hB0, if_pos hB0]
      have mul : ∀ t s : Int, t - lo ≤ s → B * (t - lo) ≤ B * s := fun t s h => mul_le_mul_of_nonneg_left h hB0.le
      have claim1 : ∀ t, t ≤ lo + p → a.at t + T ≤ b.at t := fun t ht => by
        have := mul t p (by omega)
        have := hd t
        omega
      have claim2 : ∀ t, t ≤ lo + q → a.at t ≤ b.at t + T := fun t ht => by
        have := mul t q (by omega)
        have := hd t
        omega
      obtain ⟨k1, k2, k3, k4⟩ := three_pieces .left .right (by decide) (by decide) hlt (c1 := max lo (min hi (lo + p)))
        (c2 := max lo (min hi (lo + q))) (by omega) (by omega) (by omega) (by omega) _ rfl
      refine ⟨k1, k2, k3, ?_⟩
      intro P hP t h3 h4
      rcases k4 P hP with ⟨rfl, h5⟩ | ⟨rfl, h5⟩ | ⟨rfl, h5⟩
      · dsimp only at h3 h4 ⊢
        have := claim1 t (by omega)
        exact ⟨fun _ => by omega, fun _ => this⟩
      · dsimp only at h3 h4 ⊢
        exact ⟨fun _ => claim2 t (by omega), fun h => by cases h⟩
      · exact ⟨fun h => absurd rfl h, fun h => by cases h⟩
    · have e1 : min (lo + p) (lo + q) = lo + q := by omega
      have e2 : max (lo + p) (lo + q) = lo + p := by omega
      rw [e1, e2, if_neg (not_lt.2 hB0.le), if_neg (not_lt.2 hB0.le)]
      have mul : ∀ t s : Int, s ≤ t - lo → B * (t - lo) ≤ B * s := fun t s h => mul_le_mul_of_nonpos_left h hB0.le
      have claim1 : ∀ t, lo + p ≤ t → a.at t + T ≤ b.at t := fun t ht => by
        have := mul t p (by omega)
        have := hd t
        omega
      have claim2 : ∀ t, lo + q ≤ t → a.at t ≤ b.at t + T := fun t ht => by
        have := mul t q (by omega)
        have := hd t
        omega
      obtain ⟨k1, k2, k3, k4⟩ := three_pieces .right .left (by decide) (by decide) hlt (c1 := max lo (min hi (lo + q)))
        (c2 := max lo (min hi (lo + p))) (by omega) (by omega) (by omega) (by omega) _ rfl
      refine ⟨k1, k2, k3, ?_⟩
      intro P hP t h3 h4
      rcases k4 P hP with ⟨rfl, h5⟩ | ⟨rfl, h5⟩ | ⟨rfl, h5⟩
      · exact ⟨fun h => absurd rfl h, fun h => by cases h⟩
      · dsimp only at h3 h4 ⊢
        exact ⟨fun _ => claim2 t (by omega), fun h => by cases h⟩
      · dsimp only at h3 h4 ⊢
        have := claim1 t (by omega)
        exact ⟨fun _ => by omega, fun _ => this⟩

/-- The segments between which the positions of a segment lie. -/
theorem Ln.at_bounds {s : Ln} (h : s.Valid) {t : Int} (h1 : s.y0 ≤ t) (h2 : t ≤ s.y1) : min s.x0 s.x1 ≤ s.at t ∧ s.at t ≤ max s.x0 s.x1 := by
  unfold Ln.at
  by_cases he : s.y0 = s.y1
  · rw [if_pos he]; omega
  rw [if_neg he]
  have hl := h.line he
  rcases le_total 0 s.slope with hs | hs
  · have e1 : 0 ≤ s.slope * (t - s.y0) := mul_nonneg hs (by omega)
    have e2 : s.slope * (t - s.y0) ≤ s.slope * (s.y1 - s.y0) := mul_le_mul_of_nonneg_left (by omega) hs
    omega
  · have e1 : s.slope * (t - s.y0) ≤ 0 := mul_nonpos_of_nonpos_of_nonneg hs (by omega)
    have e2 : s.slope * (s.y1 - s.y0) ≤ s.slope * (t - s.y0) := mul_le_mul_of_nonpos_left (by omega) hs
    omega

/-- The comparisons of straight segments are sound with margin `eps`. -/
theorem linesEnv_sound {eps : Int} {ls : List Ln} (he : 0 < eps) (hv : ∀ s ∈ ls, s.Valid) (hsl : ∀ a ∈ ls, ∀ b ∈ ls, a.slope - b.slope ≤ 2 * eps) :
    (linesEnv eps ls).Sound (linesEnv eps ls).atY eps := by
  have hmem : ∀ a ∈ (linesEnv eps ls).segs, ls.getD a ⟨0, 0, 0, 0, 0, true, 0, 0⟩ ∈ ls := by
    intro a ha
    obtain ⟨p, hp, rfl⟩ := List.mem_map.1 ha
    have : p ∈ (List.range ls.length).map fun s => ((ls.getD s ⟨0, 0, 0, 0, 0, true, 0, 0⟩).y0, s) := (stableSort_perm _ _).mem_iff.1 hp
    obtain ⟨s, hs, rfl⟩ := List.mem_map.1 this
    rw [List.mem_range] at hs
    rw [List.getD_eq_getElem?_getD, List.getElem?_eq_getElem hs]
    exact List.getElem_mem hs
  have hcmp : ∀ T, eps ≤ T → ∀ a, (linesEnv eps ls).Tall a → ∀ b, (linesEnv eps ls).Tall b → ∀ t, (linesEnv eps ls).Both a b t → _ := fun T hT a ha b hb t h =>
    compare_spec (a := ls.getD a ⟨0, 0, 0, 0, 0, true, 0, 0⟩) (b := ls.getD b ⟨0, 0, 0, 0, 0, true, 0, 0⟩) (T := T) (by omega)
      (by have := hsl _ (hmem a ha.1) _ (hmem b hb.1); omega)
      (by have := hsl _ (hmem b hb.1) _ (hmem a ha.1); omega)
      (le_min (max_le (h.1.trans h.2.2.1) (h.2.1.trans h.2.2.1)) (max_le (h.1.trans h.2.2.2) (h.2.1.trans h.2.2.2)))
  constructor
  case nonneg => omega
  case wf =>
    intro a ha b hb t h
    obtain ⟨c1, c2, c3, c4⟩ := hcmp eps (by omega) a ha b hb t h
    obtain ⟨d1, d2, d3, d4⟩ := hcmp (4 * eps) (by omega) a ha b hb t h
    exact ⟨⟨c1, c2.le, c3⟩, d1, d2.le⟩
  case cmp =>
    intro a ha b hb p hp ho t h1 h2 h
    exact ((hcmp eps (by omega) a ha b hb t h).2.2.2 p hp t h1 h2).1 ho
  case cons =>
    intro a ha b hb p hp ho t h1 h2 h
    have := ((hcmp (4 * eps) (by omega) a ha b hb t h).2.2.2 p hp t h1 h2).2 ho
    show (ls.getD a ⟨0, 0, 0, 0, 0, true, 0, 0⟩).at t + eps ≤ (ls.getD b ⟨0, 0, 0, 0, 0, true, 0, 0⟩).at t
    omega
  case farRight =>
    intro a ha b hb hf t h
    have h1 := Ln.at_bounds (hv _ (hmem a ha.1)) h.1 h.2.2.1
    have h2 := Ln.at_bounds (hv _ (hmem b hb.1)) h.2.1 h.2.2.2
    have hf := of_decide_eq_true hf
    dsimp only at hf
    show (ls.getD a ⟨0, 0, 0, 0, 0, true, 0, 0⟩).at t + eps ≤ (ls.getD b ⟨0, 0, 0, 0, 0, true, 0, 0⟩).at t
    omega
  case farLeft =>
    intro a ha b hb hf t h
    have h1 := Ln.at_bounds (hv _ (hmem a ha.1)) h.1 h.2.2.1
    have h2 := Ln.at_bounds (hv _ (hmem b hb.1)) h.2.1 h.2.2.2
    have hf := of_decide_eq_true hf
    dsimp only at hf
    show (ls.getD a ⟨0, 0, 0, 0, 0, true, 0, 0⟩).at t + eps ≤ (ls.getD b ⟨0, 0, 0, 0, 0, true, 0, 0⟩).at t
    omega
  case mid =>
    intro a b h
    show a ≤ (a + b) / 2 ∧ (a + b) / 2 ≤ b
    omega

/-! ## Computing whether all intersections are safe -/

/-- `DefLeft`, computed. -/
def defLeftB (E : Env Int) (y : Int) (a b : Nat) : Bool := ((E.cmp a b).iter.find? fun p => decide (y < p.hi)).any fun p => decide (p.order = .left)

theorem defLeftB_iff {E : Env Int} {y : Int} {a b : Nat} : defLeftB E y a b = true ↔ DefLeft E y a b := by
  unfold DefLeft defLeftB
  rw [Option.any_eq_true]
  simp only [decide_eq_true_eq]

/-- `SwapSafe`, computed. -/
def swapSafeB (E : Env Int) (s : State Int) (left right : Nat) : Bool :=
  match position s.line left, position s.line right with
  | some l, some r => (List.range r).all fun j => decide (j < l) ||
      match s.line[j]? with
      | none => true
      | some e => !(decide (j = l) || (!e.willReallyExit && defLeftB E s.y left e.seg)) ||
        ((!decide (l < j) || !defLeftB E s.y e.seg right) &&
          (decide (j = 0) || !decide (s.y < E.endY e.seg) || (s.line[j - 1]?).all fun x => decide (s.y < E.endY x.seg)))
  | _, _ => true

theorem swapSafeB_sound {E : Env Int} {s : State Int} {left right : Nat} (h : swapSafeB E s left right = true) : SwapSafe E s left right := by
  intro l r hl hr hlr j e h1 h2 he hm
  unfold swapSafeB at h
  rw [hl, hr] at h
  dsimp only at h
  rw [List.all_eq_true] at h
  have h := h j (List.mem_range.2 h2)
  rw [he] at h
  have hnl : decide (j < l) = false := by simpa using h1
  dsimp only at h
  rw [hnl, Bool.false_or, Bool.or_eq_true, Bool.not_eq_true', Bool.or_eq_false_iff] at h
  rcases h with ⟨h3, h4⟩ | h
  · exfalso
    rcases hm with hm | ⟨hm1, hm2⟩
    · exact absurd hm (by simpa using h3)
    · rw [hm1, defLeftB_iff.2 hm2] at h4; simp at h4
  rw [Bool.and_eq_true] at h
  obtain ⟨h3, h4⟩ := h
  refine ⟨fun h5 h6 => ?_, fun x h5 h6 h7 => ?_⟩
  · rw [defLeftB_iff.2 h6] at h3
    simp at h3
    omega
  · rw [h6] at h4
    simp only [Option.all_some, Bool.or_eq_true, decide_eq_true_eq, Bool.not_eq_true', decide_eq_false_iff_not] at h4
    rcases h4 with (h4 | h4) | h4
    · omega
    · exact absurd h7 h4
    · exact h4

/-- All the intersections that the loop handles from here on are safe. -/
def loopSafeB (E : Env Int) : Nat → State Int → Bool
  | 0, _ => false
  | n + 1, v =>
    match v.ints with
    | [] => true
    | ev :: rest => !decide (ev.y = v.y) ||
      (swapSafeB E v ev.left ev.right &&
        match handleIntersection E { v with ints := rest } ev.left ev.right with
        | none => true
        | some v' => loopSafeB E n v')

theorem loopSafeB_sound {E : Env Int} {w u : State Int} (h : LoopFrom E w u) : ∀ n, loopSafeB E n w = true → ∃ n', loopSafeB E n' u = true := by
  induction h with
  | start => intro n hn; exact ⟨n, hn⟩
  | step v v' ev rest hv h1 h2 h3 ih =>
    intro n hn
    obtain ⟨n', hn'⟩ := ih n hn
    cases n' with
    | zero => simp [loopSafeB] at hn'
    | succ n' =>
      simp only [loopSafeB] at hn'
      rw [h1] at hn'
      dsimp only at hn'
      rw [h3] at hn'
      simp only [h2, decide_true, Bool.not_true, Bool.false_or, Bool.and_eq_true] at hn'
      exact ⟨n', hn'.2⟩

theorem loopSafeB_head {E : Env Int} {w u : State Int} {ev : IEvent Int} {n : Nat} (hn : loopSafeB E n w = true) (h : LoopFrom E w u)
    (h1 : u.ints.head? = some ev) (h2 : ev.y = u.y) : SwapSafe E u ev.left ev.right := by
  obtain ⟨n', hn'⟩ := loopSafeB_sound h n hn
  cases n' with
  | zero => simp [loopSafeB] at hn'
  | succ n' =>
    obtain ⟨rest, hr⟩ := List.head?_eq_some_iff.1 h1
    simp only [loopSafeB] at hn'
    rw [hr] at hn'
    simp only [h2, decide_true, Bool.not_true, Bool.false_or, Bool.and_eq_true] at hn'
    exact swapSafeB_sound hn'.1

/-- All the intersections of a sweep are safe, by computing them. -/
theorem handles_safe {E : Env Int} {fuel : Nat} (n k : Nat) (h0 : (beforeInts E (State.new E)).all (loopSafeB E k) = true)
    (hn : (nthLine E fuel n).isNone = true) (h : ∀ i < n, (nthLine E fuel i).all (fun s => (beforeInts E s).all (loopSafeB E k)) = true) :
    ∀ u ev, Handles E fuel u ev → SwapSafe E u ev.left ev.right := by
  rintro u ev ⟨s, w, hs, hw, hl, h1, h2⟩
  have : (beforeInts E s).all (loopSafeB E k) = true := by
    rcases hs with rfl | hs
    · exact h0
    · refine Reached.forall n hn (fun s => (beforeInts E s).all (loopSafeB E k) = true) ?_ s hs
      intro i hi s hs
      have := h i hi
      rw [hs] at this
      exact this
  rw [hw] at this
  exact loopSafeB_head this hl h1 h2

/-! ## A sweep that satisfies all hypotheses -/

theorem three_sound : three.Sound three.atY 4 := by
  refine linesEnv_sound (by decide) ?_ (by decide)
  have : ∀ s ∈ ([⟨-100, -100, 100, 100, 1, true, 0, 0⟩, ⟨5, -90, 5, 90, 0, true, 1, 1⟩, ⟨100, -100, -100, 100, -1, true, 2, 2⟩] : List Ln),
      s.y0 ≤ s.y1 ∧ (s.y0 ≠ s.y1 → s.x1 = s.x0 + s.slope * (s.y1 - s.y0)) := by decide
  exact fun s hs => ⟨(this s hs).1, (this s hs).2⟩

theorem three_sched : three.Sched := by
  refine ⟨by decide, by decide, by decide, by decide, by decide, by decide, ?_, by decide⟩
  intro s
  have h1 : s ∈ three.exits.map Prod.snd ↔ s < 3 := by
    have : three.exits.map Prod.snd = [1, 0, 2] := by decide
    rw [this]
    simp only [List.mem_cons, List.not_mem_nil, or_false]
    omega
  have h2 : s ∈ three.entrances.map Prod.snd ↔ s < 3 := by
    have : three.entrances.map Prod.snd = [0, 2, 1] := by decide
    rw [this]
    simp only [List.mem_cons, List.not_mem_nil, or_false]
    omega
  have h3 : ∀ s < 3, three.isHorizontal s = false := by decide
  rw [h1, h2]
  exact ⟨fun h => ⟨h, h3 s h⟩, fun h => h.1⟩

theorem three_safe : ∀ u ev, Handles three 50 u ev → SwapSafe three u ev.left ev.right :=
  handles_safe 7 20 (by decide +kernel) (by decide +kernel) (by decide +kernel)

/-- The sweep of the three segments: six lines, at three of which there are crossings, and all hypotheses of `C62_order` hold. -/
theorem three_lines : (List.range 8).map (fun k => (nthLine three 50 k).map fun s => (s.y, s.line.map Entry.seg)) =
    [some (-100, [0, 2]), some (-90, [0, 1, 2]), some (-5, [0, 2, 1]), some (0, [2, 0, 1]), some (5, [2, 1, 0]), some (90, [2, 1, 0]),
     some (100, [2, 0]), none] := by decide +kernel

/-- C62 for these segments. -/
theorem three_order {s s' : State Int} (h : Reached three 50 s) (hn : nextLine three 50 s = some (some s')) {i j : Nat} {e f : Entry} (hij : i < j)
    (he : s.line[i]? = some e) (hf : s.line[j]? = some f) (hes : (e.exit && e.oldSeg.isNone) = false) (hfs : (f.exit && f.oldSeg.isNone) = false)
    (t : Int) (h1 : s.y < t) (h2 : t < s'.y) : three.atY e.seg t ≤ three.atY f.seg t + 8 :=
  C62_order three_sched (firstFalse_pp three rfl) three_sound three_safe h hn hij he hf hes hfs t h1 h2

/-! ## A sweep that misses a crossing -/

theorem missed_sound : missedEnv.Sound missedEnv.atY 4 := by
  refine linesEnv_sound (by decide) ?_ (by decide)
  have : ∀ s ∈ missed, s.y0 ≤ s.y1 ∧ (s.y0 ≠ s.y1 → s.x1 = s.x0 + s.slope * (s.y1 - s.y0)) := by decide
  exact fun s hs => ⟨(this s hs).1, (this s hs).2⟩

theorem missed_sched : missedEnv.Sched := by
  refine ⟨by decide, by decide, by decide, by decide, by decide, by decide, ?_, by decide⟩
  intro s
  have h1 : ∀ s ∈ missedEnv.exits.map Prod.snd, s < 10 := by decide
  have h2 : ∀ s ∈ missedEnv.entrances.map Prod.snd, s < 10 := by decide
  have h3 : ∀ s < 10, (s ∈ missedEnv.exits.map Prod.snd ↔ s ∈ missedEnv.entrances.map Prod.snd ∧ missedEnv.isHorizontal s = false) := by decide
  by_cases h : s < 10
  · exact h3 s h
  · constructor
    · intro h4; exact absurd (h1 s h4) h
    · intro h4; exact absurd (h2 s h4.1) h

/-- `SwapSafe` cannot be left out of `C62_order`: here is a sweep of ten straight segments that form three closed contours, with sound comparisons,
in which between the lines at the heights 0 and 900 the segment 0 comes before the segment 7, although at the height 700 it is 400 to the right
of it, a hundred times the tolerance. The sweep line is never told about the crossing of the two segments. (At the height 0 the segment
2, which 7 crosses there, is between 7 and the tip of a triangle, where 5 ends. So 5 is the left neighbour from which the scan for intersections
starts when 2 has been moved, and a scan from a segment that ends does nothing.) -/
theorem C62_missed_crossing : missedEnv.Sched ∧ missedEnv.PP ∧ missedEnv.Sound missedEnv.atY 4 ∧ ∃ s s' : State Int, Reached missedEnv 50 s ∧
    nextLine missedEnv 50 s = some (some s') ∧ ∃ (i j : Nat) (e f : Entry), i < j ∧ s.line[i]? = some e ∧ s.line[j]? = some f ∧
      (e.exit && e.oldSeg.isNone) = false ∧ (f.exit && f.oldSeg.isNone) = false ∧
      ∃ t, s.y < t ∧ t < s'.y ∧ missedEnv.atY f.seg t + 400 ≤ missedEnv.atY e.seg t := by
  refine ⟨missed_sched, firstFalse_pp missedEnv rfl, missed_sound, ?_⟩
  have h0 : (nthLine missedEnv 50 3).any (fun s => ((nextLine missedEnv 50 s).join).any fun s' =>
      (s.line[0]?).any fun e => (s.line[3]?).any fun f => (!(e.exit && e.oldSeg.isNone)) && !(f.exit && f.oldSeg.isNone) &&
        decide (s.y < 700 ∧ 700 < s'.y ∧ missedEnv.atY f.seg 700 + 400 ≤ missedEnv.atY e.seg 700)) = true := by decide +kernel
  simp only [Option.any_eq_true, Bool.and_eq_true, Bool.not_eq_true', decide_eq_true_eq] at h0
  obtain ⟨s, h1, s', h2, e, h3, f, h4, ⟨h5, h6⟩, h7, h8, h9⟩ := h0
  exact ⟨s, s', nth_reached h1, Option.join_eq_some_iff.1 h2, 0, 3, e, f, by decide, h3, h4, h5, h6, 700, h7, h8, h9⟩

end Verif.Sweep
