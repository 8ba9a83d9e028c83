import Verif.Scan.Records
import Verif.Curve.Model

/-!
# `close_neighbor_height_after` (C59)
-/

namespace Verif.Scan
open Verif.Curve
set_option linter.unusedSectionVars false

variable {K : Type} [LinearOrder K]

/-- topology.rs:1665-1691 (`close_neighbor_height_after`) for one output segment with the neighbour records `recs`; `cmp o` is the
result of `cmp.compare_segments` for the neighbour `o`. -/
def closeAfter (recs : List (Rec K)) (cmp : Nat → CurveOrder K) (y : K) : Option K :=
  (iter recs).findSome? fun p =>
    if p.2.1 ≤ (y : WithTop K) then none
    else p.2.2.bind fun o =>
      ((((cmp o).iter.takeWhile fun q => decide ((q.lo : WithTop K) < p.2.1)).filter fun q => decide (q.order = Order.ish)).find?
        fun q => decide (y ≤ q.lo)).map Piece.lo

/-- C59: a reported height is at or after `y`, and there an interval of closeness begins, to a segment that is a neighbour at
some height after `y` and does not cease to be a neighbour before the reported height. -/
theorem C59_sound_partial (recs : List (Rec K)) (cmp : Nat → CurveOrder K) (y h : K) (hc : closeAfter recs cmp y = some h) :
    y ≤ h ∧ ∃ p ∈ iter recs, (y : WithTop K) < p.2.1 ∧ (h : WithTop K) < p.2.1 ∧
      ∃ o, p.2.2 = some o ∧ ∃ q ∈ (cmp o).iter, q.lo = h ∧ q.order = Order.ish := by
  unfold closeAfter at hc
  obtain ⟨p, hp, hx⟩ := List.exists_of_findSome?_eq_some hc
  split at hx
  · simp at hx
  · rename_i hy
    rw [Option.bind_eq_some_iff] at hx
    obtain ⟨o, ho, hx⟩ := hx
    obtain ⟨q, hq, rfl⟩ := Option.map_eq_some_iff.1 hx
    have h1 := List.find?_some hq
    have h2 := List.mem_of_find?_eq_some hq
    rw [List.mem_filter] at h2
    have h3 := List.mem_takeWhile_imp h2.1
    simp only [decide_eq_true_eq] at h1 h2 h3
    exact ⟨h1, p, hp, not_le.1 hy, h3, o, ho, q, (List.takeWhile_prefix _).subset h2.1, rfl, h2.2⟩

/-- C59: nothing is missed: if an interval of closeness to a neighbour begins at or after `y` and before the neighbour ceases to
be one, some height is reported. -/
theorem C59_complete (recs : List (Rec K)) (cmp : Nat → CurveOrder K) (y : K)
    (hcmp : ∀ o, (cmp o).iter.Pairwise fun a b => a.lo ≤ b.lo)
    (p : K × WithTop K × Option Nat) (hp : p ∈ iter recs) (o : Nat) (ho : p.2.2 = some o) (q : Piece K) (hq : q ∈ (cmp o).iter)
    (hish : q.order = Order.ish) (h1 : y ≤ q.lo) (h2 : (q.lo : WithTop K) < p.2.1) : ∃ h, closeAfter recs cmp y = some h := by
  cases hc : closeAfter recs cmp y with
  | some h => exact ⟨h, rfl⟩
  | none =>
    exfalso
    unfold closeAfter at hc
    rw [List.findSome?_eq_none_iff] at hc
    have := hc p hp
    have hy : ¬ p.2.1 ≤ (y : WithTop K) := not_le.2 (lt_of_le_of_lt (WithTop.coe_le_coe.2 h1) h2)
    rw [if_neg hy, ho, Option.bind_some, Option.map_eq_none_iff, List.find?_eq_none] at this
    refine this q ?_ (by simpa using h1)
    rw [List.mem_filter]
    refine ⟨?_, by simpa using hish⟩
    obtain ⟨l1, l2, hsp⟩ := List.append_of_mem hq
    have hpw := hcmp o
    rw [hsp] at hpw ⊢
    rw [List.pairwise_append] at hpw
    rw [List.takeWhile_append_of_pos]
    · rw [List.takeWhile_cons_of_pos (by simpa using h2)]; simp
    · intro a ha
      have := hpw.2.2 a ha q (by simp)
      simpa using lt_of_le_of_lt (WithTop.coe_le_coe.2 this) h2

/-- C59: what is missing from a full statement. An interval of closeness that has begun before `y` and is still going on is not
reported, although the neighbour is close at height `y`; -/
theorem C59_in_progress : closeAfter [(0, some 1)] (fun _ => (⟨0, [⟨10, .ish⟩]⟩ : CurveOrder Int)) 5 = none ∧
    (⟨0, 10, .ish⟩ : Piece Int) ∈ (⟨0, [⟨10, .ish⟩]⟩ : CurveOrder Int).iter := by
  decide

/-- and a height may be reported at which the close segment is not yet a neighbour. -/
theorem C59_early : closeAfter [(0, some 1), (7, some 2)]
    (fun o => if o = 1 then (⟨0, [⟨10, .left⟩]⟩ : CurveOrder Int) else ⟨0, [⟨3, .left⟩, ⟨10, .ish⟩]⟩) 1 = some 3 ∧
    neighborAfter [((0 : Int), some 1), (7, some 2)] 3 = some 1 := by
  decide

/-- Non-vacuity of C59: a later interval of closeness to the second neighbour is found. -/
example : closeAfter [(0, some 1), (7, some 2)]
    (fun o => if o = 1 then (⟨0, [⟨10, .left⟩]⟩ : CurveOrder Int) else ⟨7, [⟨8, .left⟩, ⟨10, .ish⟩]⟩) 1 = some 8 := by
  decide

end Verif.Scan
