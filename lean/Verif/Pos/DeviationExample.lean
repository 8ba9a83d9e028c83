import Verif.Pos.Deviation
import Verif.Pos.Example

/-!
# An example for C88: a curve that comes close to a line, and goes away again
-/

namespace Verif.Pos
open Verif.Curve Verif.Geom Verif.Scan

/-- A curve with `x = 12 / 100 * (y / 4 - 1 / 2) ^ 2`, between the heights 0 and 4. -/
noncomputable def flatBow : Cubic := ⟨⟨3 / 100, 0⟩, ⟨-1 / 100, 4 / 3⟩, ⟨-1 / 100, 8 / 3⟩, ⟨3 / 100, 4⟩⟩

/-- `dip` with a curve that is almost upright. -/
noncomputable def lean (solve : ℝ → ℝ → ℝ → ℝ → List ℝ) : Input where
  n := 2
  seg i := if i = 0 then .line ⟨0, 0⟩ ⟨0, 4⟩ else .cubic flatBow
  orig := id
  first i := if i = 0 then ⟨0, 0⟩ else ⟨3 / 100, 0⟩
  second i := if i = 0 then ⟨0, 4⟩ else ⟨3 / 100, 4⟩
  cmp i _ := if i = 0 then ⟨0, [⟨1, .left⟩, ⟨3, .ish⟩, ⟨4, .left⟩]⟩ else ⟨0, [⟨1, .right⟩, ⟨3, .ish⟩, ⟨4, .right⟩]⟩
  maps := ⟨fun i => if i = 1 then [(0, some 0)] else [], fun i => if i = 0 then [(0, some 1)] else []⟩
  accuracy := 1 / 1000
  solve := solve

theorem lean_ok (solve : ℝ → ℝ → ℝ → ℝ → List ℝ) : (lean solve).Ok := by
  refine ⟨by norm_num [lean], fun i _ => ?_, two_lines (a := 0) (b := 4) rfl (fun i => ?_) (fun i => ?_) rfl, ?_, ?_⟩
  · simp only [lean]; split <;> norm_num
  · simp only [lean]; split <;> rfl
  · simp only [lean]; split <;> rfl
  · intro i y o h
    simp only [lean] at h ⊢
    split_ifs at h <;> simp at h <;> omega
  · intro z i j h _
    have hz : z < 4 := by
      have := h.2.2
      simp only [lean] at this
      split at this <;> exact this
    by_cases hi : i = 0
    · exact ⟨⟨3, 4, .left⟩, by simp [lean, CurveOrder.iter, pieces, hi], hz⟩
    · exact ⟨⟨3, 4, .right⟩, by simp [lean, CurveOrder.iter, pieces, hi], hz⟩

theorem flatBow_mono : flatBow.Mono := by
  refine ⟨by norm_num [flatBow], fun t _ _ => ?_⟩
  simp only [flatBow, Cubic.derivAt, Cubic.deriv, bez2]
  nlinarith

theorem flatBow_x {y : ℝ} (h0 : 0 ≤ y) (h1 : y ≤ 4) : solveX flatBow y = 12 / 100 * (y / 4 - 1 / 2) ^ 2 := by
  have e : (flatBow.eval (y / 4)).y = y := by simp only [flatBow, Cubic.eval, bez3]; ring
  have := solveX_eval flatBow_mono (t := y / 4) (by linarith) (by linarith)
  rw [e] at this
  rw [this]
  simp only [flatBow, Cubic.eval, bez3]; ring

theorem plumb_mono : (Seg.line ⟨0, 0⟩ ⟨0, 4⟩ : Seg).toCubic.Mono := by
  refine ⟨by norm_num [Seg.toCubic], fun t _ _ => ?_⟩
  simp only [Seg.toCubic, Cubic.derivAt, Cubic.deriv, bez2]
  nlinarith

theorem plumb_x {y : ℝ} (h0 : 0 ≤ y) (h1 : y ≤ 4) : solveX (Seg.line ⟨0, 0⟩ ⟨0, 4⟩ : Seg).toCubic y = 0 := by
  have e : ((Seg.line ⟨0, 0⟩ ⟨0, 4⟩ : Seg).toCubic.eval (y / 4)).y = y := by simp only [Seg.toCubic, Cubic.eval, bez3]; ring
  have := solveX_eval plumb_mono (t := y / 4) (by linarith) (by linarith)
  rw [e] at this
  rw [this]
  simp only [Seg.toCubic, Cubic.eval, bez3]; ring

/-- A group of both is between the heights 1 and 3. -/
theorem lean_group {solve : ℝ → ℝ → ℝ → ℝ → List ℝ} {y0 y1 : ℝ} {nbrs : List Nat} (h : Group (lean solve) y0 y1 nbrs) : (∃ o, nbrs = [o]) ∨ nbrs = [] ∨ 1 ≤ y0 ∧ y1 ≤ 3 := by
  match nbrs, h with
  | [], _ => exact .inr (.inl rfl)
  | [o], _ => exact .inl ⟨o, rfl⟩
  | a :: b :: r, h =>
    right; right
    have ha := h.alive a (by simp)
    have hb := h.alive b (by simp)
    have ha2 : a < 2 := ha.1
    have hn : neighborAfter ((lean solve).maps.east a) y0 = some b := (List.isChain_cons_cons.1 h.next).1
    have ht := (List.isChain_cons_cons.1 h.tied).1
    have hy0 : 0 ≤ y0 := by
      have := ha.2.1
      simp only [lean] at this
      split at this <;> exact this
    by_cases a0 : a = 0
    · subst a0
      obtain ⟨p, hp, hl, hh⟩ := ht
      simp only [lean, pieceAfter, CurveOrder.iter, pieces, id, if_true, List.find?_cons, List.find?_nil] at hp
      by_cases c1 : y0 < 1
      · simp only [c1, decide_true, Option.some.injEq] at hp
        subst hp; exact absurd rfl hl
      by_cases c3 : y0 < 3
      · simp only [c1, c3, decide_true, decide_false, Option.some.injEq] at hp
        subst hp; exact ⟨not_lt.1 c1, hh⟩
      by_cases c4 : y0 < 4
      · simp only [c1, c3, c4, decide_true, decide_false, Option.some.injEq] at hp
        subst hp; exact absurd rfl hl
      · simp [c1, c3, c4] at hp
    · simp [lean, a0, neighborAfter_nil] at hn

theorem lean_x0 {solve : ℝ → ℝ → ℝ → ℝ → List ℝ} {y : ℝ} (h0 : 0 ≤ y) (h1 : y ≤ 4) : (lean solve).x 0 y = 0 := plumb_x h0 h1
theorem lean_x1 {solve : ℝ → ℝ → ℝ → ℝ → List ℝ} {y : ℝ} (h0 : 0 ≤ y) (h1 : y ≤ 4) : (lean solve).x 1 y = 12 / 100 * (y / 4 - 1 / 2) ^ 2 := flatBow_x h0 h1

theorem lean_within {solve : ℝ → ℝ → ℝ → ℝ → List ℝ} (hs : FindsRoots solve) : Within (lean solve) 0 (3 / 400) 2 (3 / 100) := by
  have two : ∀ o, o < (lean solve).n → o = 0 ∨ o = 1 := fun o h => by have : o < 2 := h; omega
  refine ⟨hs, le_rfl, by norm_num, by norm_num, by norm_num, ?_, ?_, ?_, ?_, ?_, ?_⟩
  · intro o ho _
    rcases two o ho with rfl | rfl
    · exact ⟨plumb_mono, by norm_num [lean, Cubic.Spans, Seg.toCubic]⟩
    · exact ⟨flatBow_mono, by norm_num [lean, Cubic.Spans, Seg.toCubic, flatBow]⟩
  · intro o ho _
    rcases two o ho with rfl | rfl
    · exact .inl rfl
    · right
      norm_num [lean, Cubic.Steep, Seg.toCubic, flatBow, abs_of_neg]
  · intro o ho _
    rcases two o ho with rfl | rfl
    · have := lean_x0 (solve := solve) (y := 0) le_rfl (by norm_num)
      simp [lean] at this ⊢
      exact this
    · have := lean_x1 (solve := solve) (y := 0) le_rfl (by norm_num)
      change |(3 / 100 : ℝ) - (lean solve).x 1 0| ≤ 0
      rw [this]; norm_num
  · intro o ho _
    rcases two o ho with rfl | rfl
    · have := lean_x0 (solve := solve) (y := 4) (by norm_num) le_rfl
      change |(0 : ℝ) - (lean solve).x 0 4| ≤ 0
      rw [this]; norm_num
    · have := lean_x1 (solve := solve) (y := 4) (by norm_num) le_rfl
      change |(3 / 100 : ℝ) - (lean solve).x 1 4| ≤ 0
      rw [this]; norm_num
  · intro y0 y1 nbrs hg a ha b hb y h0 h1
    rcases lean_group hg with ⟨o, rfl⟩ | rfl | ⟨k0, k1⟩
    · simp only [List.mem_singleton] at ha hb
      rw [ha, hb]; norm_num
    · simp at ha
    · have hx : ∀ o ∈ nbrs, 0 ≤ (lean solve).x o y ∧ (lean solve).x o y ≤ 3 / 400 := by
        intro o ho
        rcases two o (hg.alive o ho).1 with rfl | rfl
        · rw [lean_x0 (by linarith) (by linarith)]; norm_num
        · rw [lean_x1 (by linarith) (by linarith)]
          constructor
          · positivity
          · nlinarith
      rw [abs_le]
      have := hx a ha; have := hx b hb
      constructor <;> linarith
  · intro y0 y1 nbrs hg hne hex
    rcases lean_group hg with ⟨o, rfl⟩ | rfl | ⟨k0, k1⟩
    · exact absurd rfl (hne o)
    · simp at hex
    · linarith

/-- C88 says something about `lean`: the paths stay within 3 / 20 of the input segments, although these are treated as a group between the heights 1 and 3. -/
theorem lean_paths : ∃ (I : Input) (N : ℕ) (out : Nat → OPath), I.Ok ∧ (∀ n ≥ N, computePositions I n = some out) ∧ isLine (I.seg 1) = false ∧
    ∀ o < 2, ∀ P ∈ trace (out o).start (out o).els, (0 ≤ P.y ∧ P.y ≤ 4) ∧ |P.x - I.x o P.y| ≤ 3 / 20 := by
  obtain ⟨solve, hs⟩ := findsRoots_exists
  obtain ⟨N, out, h1, h2⟩ := C88_deviation (lean_ok solve) (lean_within hs)
  refine ⟨lean solve, N, out, lean_ok solve, h1, rfl, fun o ho P hP => ?_⟩
  have e1 : ((lean solve).first o).y = 0 := by simp only [lean]; split <;> rfl
  have e2 : ((lean solve).second o).y = 4 := by simp only [lean]; split <;> rfl
  have := h2 o ho (by rw [e1, e2]; norm_num) P hP
  rw [e1, e2] at this
  refine ⟨this.1, this.2.trans ?_⟩
  unfold bendOf
  norm_num [lean]

end Verif.Pos
