import Verif.Pos.Run

/-!
# Properties of the layout (C39, C69, C70)
-/

namespace Verif.Pos
open Verif.Curve Verif.Geom Verif.Scan

/-! ## The last step -/

theorem finish_ok {I : Input} {o : Nat} (hd : (I.first o).y ≤ (I.second o).y) {p : OPath} (h : PathOk I o p) :
    (finish I o p).start = I.first o ∧ (finish I o p).stop = I.second o ∧ (finish I o p).els ≠ [] ∧
    (∀ e ∈ (finish I o p).els, (I.first o).y ≤ e.stop.y ∧ e.stop.y ≤ (I.second o).y) ∧
    ∀ k, (finish I o p).copied = some k → k < (finish I o p).els.length := by
  unfold finish
  split
  · split
    · refine ⟨h.start, by simp [OPath.push, OPath.stop, El.stop], by simp [OPath.push], ?_, ?_⟩
      · intro e he
        simp only [OPath.push, List.mem_append, List.mem_singleton] at he
        rcases he with he | rfl
        · exact h.between e he
        · exact ⟨hd, le_rfl⟩
      · intro k hk
        simp only [OPath.push, Option.some.injEq] at hk ⊢
        simp [← hk]
    · have e3 : (nextSub (I.seg o) p (I.second o).y (I.second o)).p3 = I.second o := by simp [nextSub]
      refine ⟨h.start, by simp [OPath.push, OPath.stop, El.stop, e3], by simp [OPath.push], ?_, ?_⟩
      · intro e he
        simp only [OPath.push, List.mem_append, List.mem_singleton] at he
        rcases he with he | rfl
        · exact h.between e he
        · rw [e3]; exact ⟨hd, le_rfl⟩
      · intro k hk
        simp only [OPath.push, Option.some.injEq] at hk ⊢
        simp [← hk]
  · rename_i hlt
    cases hl : p.els.getLast? with
    | none =>
      exfalso
      have hnil : p.els = [] := List.getLast?_eq_none_iff.1 hl
      have hst : p.stop = I.first o := by rw [OPath.stop, hl, h.start]
      rw [hst] at hlt
      have he := le_antisymm hd (not_lt.1 hlt)
      have := h.flat he
      rw [this, initPath, if_pos he] at hnil
      simp at hnil
    | some e =>
      obtain ⟨l, hl⟩ := List.getLast?_eq_some_iff.1 hl
      have hs : (e.setStop (I.second o)).stop = I.second o := by cases e <;> rfl
      simp only [hl, List.dropLast_concat]
      refine ⟨h.start, by simp [OPath.stop, hs], by simp, ?_, ?_⟩
      · intro f hf
        simp only [List.mem_append, List.mem_singleton] at hf
        rcases hf with hf | rfl
        · exact h.between f (by rw [hl]; simp [hf])
        · rw [hs]; exact ⟨hd, le_rfl⟩
      · intro k hk
        have := h.copied k hk
        rw [hl] at this
        simpa using this

/-! ## C39 -/

/-- **C39.** Approximating curves from `y0` to `y1` ends, for every accuracy above zero, with a height `y` above `y0` and at most `y1`; then the
curves have been replaced by their parabolas between `y0` and `y`. The height is `y1`, or more than half the accuracy beyond `y0`. -/
theorem C39_approximate (solve : ℝ → ℝ → ℝ → ℝ → List ℝ) {acc : ℝ} (ha : 0 < acc) (cs : List Cubic) {y0 y1 : ℝ} (h : y0 < y1) :
    ∃ N y, (∀ n ≥ N, approximate solve acc cs y0 n y1 = some (y, cs.map fun c => fromCubic solve (recentred c y0 y))) ∧
      y0 < y ∧ y ≤ y1 ∧ (y = y1 ∨ y0 + acc / 2 < y) := by
  obtain ⟨N, ⟨y, l⟩, hN⟩ := approximate_total solve ha cs y0 y1
  obtain ⟨b1, b2, b3⟩ := approximate_bounds h hN
  obtain ⟨_, rfl, _⟩ := approximate_spec hN
  exact ⟨N, y, fun n hn => approximate_mono hn hN, b1, b2, b3⟩

/-- **C39.** The layout ends without a panic. The path of each output segment begins at its first endpoint and ends at its second endpoint, in
between it does not leave the heights of the segment with an end point, and the index of the unperturbed part is the index of a part of the path. -/
theorem C39_layout {I : Input} (ok : I.Ok) : ∃ N out, (∀ n ≥ N, computePositions I n = some out) ∧ ∀ i < I.n,
    (out i).start = I.first i ∧ (out i).stop = I.second i ∧ (out i).els ≠ [] ∧
    (∀ e ∈ (out i).els, (I.first i).y ≤ e.stop.y ∧ e.stop.y ≤ (I.second i).y) ∧
    ∀ k, (out i).copied = some k → k < (out i).els.length := by
  obtain ⟨N, s, h1, h2, _⟩ := mainLoop_total ok (fun _ => True) (fun _ _ _ _ _ _ => ⟨fun _ => trivial, fun _ _ _ _ _ _ _ _ _ => trivial⟩)
    _ (initState I) le_rfl (initState_inv ok) trivial
  refine ⟨N, fun o => finish I o (s.out o), ?_, ?_⟩
  · intro n hn
    rw [computePositions, h1 n hn]
    rfl
  · intro i hi
    exact finish_ok (ok.down i hi) (h2.path i)

/-! ## C69 -/

/-- Output segment `a` comes before `b` in the list. -/
def ComesBefore (os : List Nat) (a b : Nat) : Prop := [a, b].Sublist os

theorem strips_pair {I : Input} {os : List Nat} {ss : List Strip} (ok : ∀ s ∈ ss, StripOk I os s) {a b : Nat} (h : ComesBefore os a b) :
    ∀ s ∈ ss, s.xm a ≤ s.xm b ∧ s.x1 a ≤ s.x1 b := fun s hs =>
  ⟨List.pairwise_iff_forall_sublist.1 (ok s hs).xm.le h, List.pairwise_iff_forall_sublist.1 (ok s hs).x1.le h⟩

/-- The element that copies the rest of an original segment down to the height `y`. -/
noncomputable def copyEl (I : Input) (o : Nat) (p : OPath) (y : ℝ) : El :=
  if isLine (I.seg o) then .line (I.second o)
  else .curve (nextSub (I.seg o) p y (I.second o)).p1 (nextSub (I.seg o) p y (I.second o)).p2 (nextSub (I.seg o) p y (I.second o)).p3

theorem ensureOne_cases (I : Input) (y0 : ℝ) (o : Nat) (p : OPath) : ensureOne I y0 o p = p ∧ y0 ≤ p.stop.y ∨
    p.stop.y < y0 ∧ ensureOne I y0 o p = ⟨p.start, p.els ++ [copyEl I o p y0], some p.els.length⟩ := by
  unfold ensureOne copyEl
  split
  · rename_i h
    right; refine ⟨h, ?_⟩; split <;> rfl
  · rename_i hy; exact .inl ⟨rfl, not_lt.1 hy⟩

/-- **C69.** The guarantee of `ordered_curves_all_close`. In two cases it leaves all paths alone; otherwise it appends to the path of each member `o` of the group, after
a copied part that brings it to the height `y0` if necessary (`base`), pieces `added o`. If the paths of two members end at the height `y0`, the
first of them not to the right of the second, then the added pieces have the same order at every height, without any tolerance; and they stay
between the heights `y0` and `y1`. -/
theorem C69_order {I : Input} {os : List Nat} (hn : os.Nodup) {y0 y1 : ℝ} (h01 : y0 ≤ y1) {n : ℕ} {out r : Nat → OPath}
    (h : allClose I n os y0 y1 out = some r) :
    LeftAlone I y0 y1 os out ∧ r = out ∨ ¬ LeftAlone I y0 y1 os out ∧ ∃ (base : Nat → OPath) (added : Nat → List El),
      (∀ o, o ∉ os → r o = out o) ∧
      (∀ o ∈ os, base o = out o ∧ y0 ≤ (out o).stop.y ∨
        (out o).stop.y < y0 ∧ base o = ⟨(out o).start, (out o).els ++ [copyEl I o (out o) y0], some (out o).els.length⟩) ∧
      (∀ o ∈ os, (r o).start = (base o).start ∧ (r o).copied = (base o).copied ∧ (r o).els = (base o).els ++ added o) ∧
      (∀ o ∈ os, y0 < y1 → (r o).stop.y = y1) ∧
      (∀ o ∈ os, (base o).stop.y = y0 → ∀ P ∈ trace (base o).stop (added o), y0 ≤ P.y ∧ P.y ≤ y1) ∧
      ∀ a b, ComesBefore os a b → (base a).stop.y = y0 → (base b).stop.y = y0 → (base a).stop.x ≤ (base b).stop.x →
        ∀ P ∈ trace (base a).stop (added a), ∀ Q ∈ trace (base b).stop (added b), P.y = Q.y → P.x ≤ Q.x := by
  rcases allClose_spec I hn h01 h with h | ⟨h0, ss, h1, h2, h3⟩
  · exact .inl h
  · refine .inr ⟨h0, fun o => ensureOne I y0 o (out o), fun o => ss.map fun s => s.el o, ?_, ?_, ?_, ?_, ?_, ?_⟩
    · intro o ho; rw [h3 o, if_neg ho]
    · exact fun o _ => ensureOne_cases I y0 o (out o)
    · intro o ho; rw [h3 o, if_pos ho]; exact ⟨rfl, rfl, rfl⟩
    · intro o ho hlt
      have hne : ss ≠ [] := by rintro rfl; exact hlt.ne h1.nil_eq
      rw [h3 o, if_pos ho]
      exact stacked_stop h1 o _ (.inr hne)
    · intro o ho hy P hP
      have e : (ensureOne I y0 o (out o)).stop = ⟨(ensureOne I y0 o (out o)).stop.x, y0⟩ := Pt.ext rfl hy
      rw [e] at hP
      have := stacked_trace h1 o _ P hP
      exact ⟨this.1, this.2.1⟩
    · intro a b hab ha hb hx P hP Q hQ hy
      have ea : (ensureOne I y0 a (out a)).stop = ⟨(ensureOne I y0 a (out a)).stop.x, y0⟩ := Pt.ext rfl ha
      have eb : (ensureOne I y0 b (out b)).stop = ⟨(ensureOne I y0 b (out b)).stop.x, y0⟩ := Pt.ext rfl hb
      rw [ea] at hP
      rw [eb] at hQ
      exact stacked_ordered h1 (strips_pair h2 hab) hx P Q hP hQ hy

/-- **C69.** If it does anything, it brings a curve that ends above `y0` to the height `y0`, at the position of the original curve. -/
theorem C69_copied_curve {I : Input} {o : Nat} {y0 : ℝ} (hc : isLine (I.seg o) = false) (p : OPath) (hp : p.stop.y < y0) (hs : y0 ≠ (I.second o).y) :
    (ensureOne I y0 o p).stop = ⟨solveX (I.seg o).toCubic y0, y0⟩ := by
  unfold ensureOne
  rw [if_pos hp]
  simp only [hc, Bool.false_eq_true, if_false]
  simp [OPath.push, OPath.stop, El.stop, nextSub, hs.symm, ySubsegment, Cubic.subsegment, solveX]

end Verif.Pos
