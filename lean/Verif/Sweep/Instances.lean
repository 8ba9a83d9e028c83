import Verif.Sweep.Lines

/-!
# Instances

Concrete cases that meet the hypotheses of the theorems about the sweep (C31 to C36).
-/

namespace Verif.Sweep
open Verif.Curve Verif.Range Verif.Topo Verif.Scan Verif.Merge
set_option linter.unusedSectionVars false

set_option synthInstance.maxHeartbeats 200000 in
set_option synthInstance.maxSize 1000 in
/-- The sweep lines of the bow tie: height, order below, intersections to come, horizontal segments, changed intervals. -/
theorem bow_lines : (List.range 4).map (fun k => (nthLine bow 50 k).map fun s => (s.y, s.line.map Entry.seg, s.ints, s.horiz, s.chg)) =
    [some (0, [0, 2], [⟨16, 0, 2⟩], [3], [⟨0, 2, some (0, 1)⟩]), some (16, [2, 0], [], [], [⟨0, 2, none⟩]),
     some (32, [2, 0], [], [1], [⟨0, 2, some (0, 1)⟩]), none] := by decide +kernel

/-- The line in the middle of the bow tie, where the diagonals cross. -/
theorem bow_middle : ∃ s, Reached bow 50 s ∧ s.y = 16 ∧ s.line.map Entry.seg = [2, 0] ∧ s.chg = [⟨0, 2, none⟩] ∧
    ∃ s', nextLine bow 50 s = some (some s') ∧ s'.y = 32 ∧ s'.horiz = [1] := by
  have h0 : (nthLine bow 50 1).all (fun s => decide (s.y = 16 ∧ s.line.map Entry.seg = [2, 0] ∧ s.chg = [⟨0, 2, none⟩]) &&
      ((nextLine bow 50 s).join).any fun s' => decide (s'.y = 32 ∧ s'.horiz = [1])) = true ∧ (nthLine bow 50 1).isSome = true := by decide +kernel
  obtain ⟨h, hs⟩ := h0
  obtain ⟨s, hs⟩ := Option.isSome_iff_exists.1 hs
  rw [hs, Option.all_some, Bool.and_eq_true, decide_eq_true_eq] at h
  obtain ⟨⟨h1, h2, h3⟩, h4⟩ := h
  rw [Option.any_eq_true] at h4
  obtain ⟨s', h4, h5⟩ := h4
  rw [decide_eq_true_eq] at h5
  exact ⟨s, nth_reached hs, h1, h2, h3, s', Option.join_eq_some_iff.1 h4, h5.1, h5.2⟩

/-- C31, C33 to C36 speak about reached lines; here is what they say about that one. -/
example : ∃ s s' : State Int, Reached bow 50 s ∧ nextLine bow 50 s = some (some s') ∧ s.y < s'.y ∧
    (s.line.flatMap (fun e => e.seg :: e.oldSeg.toList) ++ s.horiz).Nodup ∧ (∃ c ∈ s.chg, c.start ≤ 1 ∧ 1 < c.stop) := by
  obtain ⟨s, h1, h2, h3, h4, s', h5, h6, h7⟩ := bow_middle
  have hv := bow_valid
  exact ⟨s, s', h1, h5, C31_increasing hv.sched hv.pp h1 h5, (C31_content hv.sched hv.pp h1).1, by rw [h4]; simp⟩

/-- C32: a queue with two events at the same height. -/
example : pushInt ⟨3, 2, 1⟩ (pushInt ⟨5, 0, 1⟩ (pushInt ⟨3, 0, 1⟩ [])) = [(⟨3, 0, 1⟩ : IEvent Int), ⟨3, 2, 1⟩, ⟨5, 0, 1⟩] := by decide

/-- C33: overlapping and touching intervals are merged and the horizontal segments kept. -/
example : mergeAdjacent [⟨0, 2, none⟩, ⟨2, 3, some (0, 1)⟩, ⟨2, 5, some (1, 3)⟩, ⟨7, 8, none⟩] = [⟨0, 5, some (0, 3)⟩, ⟨7, 8, none⟩] := by decide

/-- C34: the range in the middle of the bow tie is delivered: both diagonals go through the point `(16, 16)`. -/
example : ((nthLine bow 50 1).bind fun s => (nextRange bow s [] ⟨0, 2, none⟩).map fun r => r.2.map fun e => (e.segIdx, e.x0, e.x1, e.connectedAbove, e.connectedBelow)) =
    some [(0, 16, 16, true, true), (2, 16, 16, true, true)] := by decide +kernel

/-- Three segments: 0 and 2 cross at height 0, 1 is between them and is pushed along. -/
def three : Env Int := linesEnv 4 [⟨-100, -100, 100, 100, 1, true, 0, 0⟩, ⟨5, -90, 5, 90, 0, true, 1, 1⟩, ⟨100, -100, -100, 100, -1, true, 2, 2⟩]

def threeState : State Int := ⟨0, [Entry.new 0, Entry.new 1, Entry.new 2], 3, 0, [], [], [], []⟩

/-- C35: the hypotheses of both theorems hold, and the result is the order 2, 0, 1. -/
example : ((threeState.line.flatMap fun e => e.seg :: e.oldSeg.toList).Nodup ∧ (∃ e ∈ threeState.line, e.seg = 0) ∧ (∃ e ∈ threeState.line, e.seg = 2)) ∧
    (∀ b ∈ threeState.line, ∀ c ∈ threeState.line, DefLeft three 0 0 b.seg → DefLeft three 0 b.seg c.seg → DefLeft three 0 0 c.seg) ∧
    ¬ DefLeft three 0 0 2 ∧ (handleIntersection three threeState 0 2).map (fun s => s.line.map Entry.seg) = some [2, 0, 1] := by
  have hd : ∀ a b, DefLeft three 0 a b ↔ ((three.cmp a b).iter.find? (fun p => decide (0 < p.hi))).any (fun p => decide (p.order = .left)) = true := by
    intro a b
    unfold DefLeft
    rw [Option.any_eq_true]
    simp only [decide_eq_true_eq]
  refine ⟨by decide, ?_, ?_, by decide +kernel⟩
  · simp only [hd]
    decide +kernel
  · rw [hd]
    decide +kernel

end Verif.Sweep
