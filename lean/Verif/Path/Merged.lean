import Verif.Path.Runs

/-!
# What a merged piece draws
-/

namespace Verif.Path
open Verif.Geom Verif.Topo Verif.Pos

/-! ## Parts of Bézier curves -/

theorem reverse_eval (Γ : PSeg) (u : ℝ) : Γ.reverse.eval u = Γ.eval (1 - u) := by
  cases Γ with
  | line p q => ext <;> simp [PSeg.reverse, PSeg.eval, Pt.affine] <;> ring
  | quad q => ext <;> simp [PSeg.reverse, PSeg.eval, Quad.eval, bez2] <;> ring
  | cubic c => ext <;> simp [PSeg.reverse, PSeg.eval, Cubic.eval, bez3] <;> ring

theorem subsegment_eval (Γ : PSeg) (a b u : ℝ) : (Γ.subsegment a b).eval u = Γ.eval (a + u * (b - a)) := by
  cases Γ with
  | line p q => ext <;> simp [PSeg.subsegment, PSeg.eval, Pt.affine] <;> ring
  | quad q => ext <;> simp [PSeg.subsegment, PSeg.eval, Quad.eval, bez2, Pt.affine] <;> ring
  | cubic c => exact Cubic.subsegment_eval c a b u

theorem subInput_eval (Γ : PSeg) (τ σ u : ℝ) : (subInput Γ τ σ).eval u = Γ.eval (τ + u * (σ - τ)) := by
  unfold subInput
  split_ifs
  · exact subsegment_eval Γ τ σ u
  · rw [subsegment_eval, reverse_eval]; congr 1; ring

/-- An element drawn from another starting point. -/
theorem el_trace (p : PSeg) (P R : Pt) (h : R ∈ p.el.trace P) : ∃ u w : ℝ, 0 ≤ u ∧ u ≤ 1 ∧ 0 ≤ w ∧ w ≤ 1 ∧
    R.x = (p.eval u).x + w * (P.x - (p.eval 0).x) ∧ R.y = (p.eval u).y + w * (P.y - (p.eval 0).y) := by
  cases p with
  | line a b =>
    obtain ⟨u, u0, u1, rfl⟩ := h
    exact ⟨u, 1 - u, u0, u1, by linarith, by linarith, by simp [PSeg.eval, Pt.affine]; ring, by simp [PSeg.eval, Pt.affine]; ring⟩
  | quad q =>
    obtain ⟨u, u0, u1, rfl⟩ := h
    refine ⟨u, (1 - u) ^ 2, u0, u1, by positivity, pow_le_one₀ (by linarith) (by linarith), ?_, ?_⟩ <;>
      simp [PSeg.eval, Quad.eval, bez2] <;> ring
  | cubic c =>
    obtain ⟨u, u0, u1, rfl⟩ := h
    refine ⟨u, (1 - u) ^ 3, u0, u1, pow_nonneg (by linarith) 3, pow_le_one₀ (by linarith) (by linarith), ?_, ?_⟩ <;>
      simp [PSeg.eval, Cubic.eval, bez3] <;> ring

theorem el_trace_mem (p : PSeg) (P : Pt) {u : ℝ} (u0 : 0 ≤ u) (u1 : u ≤ 1) : ∃ R ∈ p.el.trace P, ∃ w : ℝ, 0 ≤ w ∧ w ≤ 1 ∧
    R.x = (p.eval u).x + w * (P.x - (p.eval 0).x) ∧ R.y = (p.eval u).y + w * (P.y - (p.eval 0).y) := by
  cases p with
  | line a b =>
    exact ⟨_, ⟨u, u0, u1, rfl⟩, 1 - u, by linarith, by linarith, by simp [PSeg.eval, Pt.affine]; ring, by simp [PSeg.eval, Pt.affine]; ring⟩
  | quad q =>
    refine ⟨_, ⟨u, u0, u1, rfl⟩, (1 - u) ^ 2, by positivity, pow_le_one₀ (by linarith) (by linarith), ?_, ?_⟩ <;>
      simp [PSeg.eval, Quad.eval, bez2] <;> ring
  | cubic c =>
    refine ⟨_, ⟨u, u0, u1, rfl⟩, (1 - u) ^ 3, pow_nonneg (by linarith) 3, pow_le_one₀ (by linarith) (by linarith), ?_, ?_⟩ <;>
      simp [PSeg.eval, Cubic.eval, bez3] <;> ring

theorem el_stop (p : PSeg) : p.el.stop = p.eval 1 := by
  cases p with
  | line a b => ext <;> simp [PSeg.el, El.stop, PSeg.eval, Pt.affine]
  | quad q => ext <;> simp [PSeg.el, El.stop, PSeg.eval, Quad.eval, bez2]
  | cubic c => ext <;> simp [PSeg.el, El.stop, PSeg.eval, Cubic.eval, bez3]

/-! ## The pieces of an input curve -/

/-- A segment is the part of its input curve between its parameters; its height increases. -/
structure Src.Piece (S : Src) (o : Nat) : Prop where
  lo : 0 ≤ (S.split o).1
  le : (S.split o).1 ≤ (S.split o).2
  hi : (S.split o).2 ≤ 1
  mono : (S.seg o).toCubic.Mono
  part : ∀ u, (S.seg o).toCubic.eval u = (S.input o).eval
    (if S.orient o then (S.split o).1 + u * ((S.split o).2 - (S.split o).1) else (S.split o).2 - u * ((S.split o).2 - (S.split o).1))

variable {W : Type} {t : Topo ℝ W} {S : Src} {pos : Nat → OPath}

/-- The segment is walked in the direction of its input curve. -/
def Forward (t : Topo ℝ W) (S : Src) (s : Half) : Prop := s.first ≠ S.orient (t.origSeg s.idx)

/-- `b` continues `a`: both are walked in the same direction along the same input curve, and the piece of `b` begins where the piece of `a` ends. -/
def Follows (t : Topo ℝ W) (S : Src) (a b : Half) : Prop :=
  S.input (t.origSeg a.idx) = S.input (t.origSeg b.idx) ∧
  (Forward t S a ∧ Forward t S b ∧ (S.split (t.origSeg a.idx)).2 = (S.split (t.origSeg b.idx)).1 ∨
   ¬ Forward t S a ∧ ¬ Forward t S b ∧ (S.split (t.origSeg a.idx)).1 = (S.split (t.origSeg b.idx)).2)

/-- The points of the original segment between the heights of the ends of an output segment. -/
def origPart (t : Topo ℝ W) (S : Src) (s : Half) : Set Pt :=
  {P | (pt t ⟨s.idx, true⟩).y ≤ P.y ∧ P.y ≤ (pt t ⟨s.idx, false⟩).y ∧ P.x = solveX (S.seg (t.origSeg s.idx)).toCubic P.y}

/-- The parameter of the input curve at a height of a segment. -/
noncomputable def vAt (S : Src) (o : Nat) (y : ℝ) : ℝ := inputT S o (solveT (S.seg o).toCubic y)

/-- The parameter as an affine function. -/
noncomputable def raw (S : Src) (o : Nat) (u : ℝ) : ℝ :=
  if S.orient o then (S.split o).1 + u * ((S.split o).2 - (S.split o).1) else (S.split o).2 - u * ((S.split o).2 - (S.split o).1)

theorem Src.Piece.inputT {o : Nat} (h : S.Piece o) {u : ℝ} (u0 : 0 ≤ u) (u1 : u ≤ 1) : inputT S o u = raw S o u := by
  have h1 := h.lo; have h2 := h.hi; have h3 := h.le
  have e1 : 0 ≤ u * ((S.split o).2 - (S.split o).1) := mul_nonneg u0 (by linarith)
  have e2 : u * ((S.split o).2 - (S.split o).1) ≤ (S.split o).2 - (S.split o).1 := mul_le_of_le_one_left (by linarith) u1
  unfold Verif.Path.inputT raw
  simp only
  rw [min_eq_right, max_eq_right] <;> split_ifs <;> linarith

theorem Src.Piece.vAt_eq {o : Nat} (h : S.Piece o) {y : ℝ} (h0 : (S.seg o).toCubic.p0.y ≤ y) (h1 : y ≤ (S.seg o).toCubic.p3.y) :
    vAt S o y = raw S o (solveT (S.seg o).toCubic y) :=
  h.inputT (solveT_spec h0 h1).1 (solveT_spec h0 h1).2.1

theorem Src.Piece.vAt_eval {o : Nat} (h : S.Piece o) {y : ℝ} (h0 : (S.seg o).toCubic.p0.y ≤ y) (h1 : y ≤ (S.seg o).toCubic.p3.y) :
    (S.input o).eval (vAt S o y) = ⟨solveX (S.seg o).toCubic y, y⟩ := by
  rw [h.vAt_eq h0 h1, ← eval_solveT h0 h1, h.part]; rfl

/-- Between two heights the input curve draws the segment. -/
theorem Src.Piece.image {o : Nat} (h : S.Piece o) {y0 y1 : ℝ} (sp : (S.seg o).toCubic.Spans y0 y1) (h01 : y0 ≤ y1) :
    (S.input o).eval '' Set.uIcc (vAt S o y0) (vAt S o y1) = {P | y0 ≤ P.y ∧ P.y ≤ y1 ∧ P.x = solveX (S.seg o).toCubic P.y} := by
  have a0 := sp.1
  have a1 := sp.2.2
  have b0 := solveT_spec a0 (h01.trans a1)
  have b1 := solveT_spec (a0.trans h01) a1
  have hle := h.mono.solveT_le a0 h01 a1
  rw [h.vAt_eq a0 (h01.trans a1), h.vAt_eq (a0.trans h01) a1]
  have hd : 0 ≤ (S.split o).2 - (S.split o).1 := by linarith [h.le]
  obtain ⟨k, e⟩ : ∃ k : ℝ, ∀ u, raw S o u = raw S o 0 + k * u := by
    unfold raw
    by_cases ho : S.orient o = true
    · exact ⟨(S.split o).2 - (S.split o).1, fun u => by simp only [ho, if_true]; ring⟩
    · exact ⟨-((S.split o).2 - (S.split o).1), fun u => by simp only [ho]; simp; ring⟩
  have himg : Set.uIcc (raw S o (solveT (S.seg o).toCubic y0)) (raw S o (solveT (S.seg o).toCubic y1)) =
      (raw S o) '' Set.Icc (solveT (S.seg o).toCubic y0) (solveT (S.seg o).toCubic y1) := by
    have : raw S o = fun u => raw S o 0 + k * u := funext e
    rw [this, ← Set.uIcc_of_le hle]
    rw [show (fun u => raw S o 0 + k * u) = (fun x => raw S o 0 + x) ∘ (fun u => k * u) from rfl, Set.image_comp, Set.image_const_mul_uIcc,
      Set.image_const_add_uIcc]
    simp
  rw [himg, Set.image_image]
  ext P
  constructor
  · rintro ⟨u, ⟨u0, u1⟩, rfl⟩
    have : (S.input o).eval (raw S o u) = (S.seg o).toCubic.eval u := (h.part u).symm
    simp only [this]
    have h0 : 0 ≤ u := b0.1.trans u0
    have h1 : u ≤ 1 := u1.trans b1.2.1
    refine ⟨?_, ?_, (solveX_eval h.mono h0 h1).symm⟩
    · have := h.mono.mono b0.1 u0 h1; rwa [b0.2.2] at this
    · have := h.mono.mono h0 u1 b1.2.1; rwa [b1.2.2] at this
  · rintro ⟨p0, p1, p2⟩
    refine ⟨solveT (S.seg o).toCubic P.y, ⟨h.mono.solveT_le a0 p0 (p1.trans a1), h.mono.solveT_le (a0.trans p0) p1 a1⟩, ?_⟩
    have : (S.input o).eval (raw S o (solveT (S.seg o).toCubic P.y)) = (S.seg o).toCubic.eval (solveT (S.seg o).toCubic P.y) := (h.part _).symm
    simp only [this]
    rw [eval_solveT (a0.trans p0) (p1.trans a1)]
    exact Pt.ext p2.symm rfl

end Verif.Path
