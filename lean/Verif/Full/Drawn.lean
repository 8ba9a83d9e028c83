import Verif.Full.Cross
import Mathlib.Analysis.Calculus.Deriv.Pow

/-!
# The curves as they are drawn

The winding number in terms of the path that the user drew: lines, quadratic and cubic Bézier curves by their textbook formulas, without conversion to cubics and
without pieces.
-/

namespace Verif.Full
open Verif.Segs (PathSeg PathEl)

/-! ## Specification -/

/-- The horizontal coordinate of the point of a segment of a path with parameter `u`: Bernstein's formulas. -/
def drawnX : PathSeg ℝ → ℝ → ℝ
  | .line p q, u => (1 - u) * p.x + u * q.x
  | .quad p q r, u => (1 - u) ^ 2 * p.x + 2 * (1 - u) * u * q.x + u ^ 2 * r.x
  | .cubic p q r s, u => (1 - u) ^ 3 * p.x + 3 * (1 - u) ^ 2 * u * q.x + 3 * (1 - u) * u ^ 2 * r.x + u ^ 3 * s.x

/-- The height of that point. -/
def drawnY : PathSeg ℝ → ℝ → ℝ
  | .line p q, u => (1 - u) * p.y + u * q.y
  | .quad p q r, u => (1 - u) ^ 2 * p.y + 2 * (1 - u) * u * q.y + u ^ 2 * r.y
  | .cubic p q r s, u => (1 - u) ^ 3 * p.y + 3 * (1 - u) ^ 2 * u * q.y + 3 * (1 - u) * u ^ 2 * r.y + u ^ 3 * s.y

/-- The horizontal line at height `z` meets the segment neither in its ends nor in a point with a horizontal tangent. -/
def Plain (g : PathSeg ℝ) (z : ℝ) : Prop :=
  drawnY g 0 ≠ z ∧ drawnY g 1 ≠ z ∧ ∀ u, 0 ≤ u → u ≤ 1 → drawnY g u = z → deriv (drawnY g) u ≠ 0

/-- How often a segment crosses the ray that leaves `(x, z)` to the left: crossings downwards (in the direction of growing heights) minus crossings upwards. -/
noncomputable def crossings (g : PathSeg ℝ) (x z : ℝ) : ℤ :=
  ∑ᶠ u ∈ {u : ℝ | 0 < u ∧ u < 1 ∧ drawnY g u = z ∧ drawnX g u < x}, (SignType.sign (deriv (drawnY g) u) : ℤ)

/-! ## Proofs -/

/-- `to_cubic` does not change the curve. -/
theorem toCubic_drawn (g : PathSeg ℝ) (u : ℝ) : ((toCubic g).eval u).x = drawnX g u ∧ ((toCubic g).eval u).y = drawnY g u := by
  cases g with
  | line p q => simp only [toCubic, Geom.Cubic.eval, Geom.bez3, pt, drawnX, drawnY]; constructor <;> ring
  | quad p q r => simp only [toCubic, Geom.Cubic.eval, Geom.bez3, pt, drawnX, drawnY]; constructor <;> ring
  | cubic p q r s => simp only [toCubic, Geom.Cubic.eval, Geom.bez3, pt, drawnX, drawnY]; exact ⟨trivial, trivial⟩

theorem cubic_deriv (c : Geom.Cubic) (u : ℝ) : HasDerivAt (fun v => (c.eval v).y) (c.derivAt u).y u := by
  have e : (fun v => (c.eval v).y) = fun v : ℝ => c.p0.y + 3 * (c.p1.y - c.p0.y) * v + 3 * (c.p2.y - 2 * c.p1.y + c.p0.y) * v ^ 2 +
      (c.p3.y - 3 * c.p2.y + 3 * c.p1.y - c.p0.y) * v ^ 3 := by
    funext v
    simp only [Geom.Cubic.eval, Geom.bez3]
    ring
  rw [e]
  have h := (((hasDerivAt_const u (c.p0.y)).add ((hasDerivAt_id u).const_mul (3 * (c.p1.y - c.p0.y)))).add
    ((hasDerivAt_pow 2 u).const_mul (3 * (c.p2.y - 2 * c.p1.y + c.p0.y)))).add ((hasDerivAt_pow 3 u).const_mul (c.p3.y - 3 * c.p2.y + 3 * c.p1.y - c.p0.y))
  refine h.congr_deriv ?_
  simp only [Geom.Cubic.derivAt, Geom.Cubic.deriv, Geom.bez2]
  norm_num
  ring

theorem toCubic_deriv (g : PathSeg ℝ) (u : ℝ) : ((toCubic g).derivAt u).y = deriv (drawnY g) u := by
  have : drawnY g = fun v => ((toCubic g).eval v).y := funext fun v => (toCubic_drawn g v).2.symm
  rw [this, (cubic_deriv (toCubic g) u).deriv]

theorem plain_iff (g : PathSeg ℝ) (z : ℝ) : Plain g z ↔ Regular (toCubic g) z := by
  unfold Plain Regular
  have e0 : (toCubic g).p0.y = drawnY g 0 := by rw [← (toCubic_drawn g 0).2]; simp [Geom.Cubic.eval, Geom.bez3]
  have e1 : (toCubic g).p3.y = drawnY g 1 := by rw [← (toCubic_drawn g 1).2]; simp [Geom.Cubic.eval, Geom.bez3]
  rw [e0, e1]
  simp only [toCubic_deriv, toCubic_drawn]

theorem crossings_eq (g : PathSeg ℝ) (x z : ℝ) : crossings g x z = crossing (toCubic g) x z := by
  unfold crossings crossing
  simp only [toCubic_deriv, toCubic_drawn]

/-- The number that is computed from monotone pieces is the number of crossings of the drawn curves with the ray, at every height where the horizontal line meets no
end of a segment and no horizontal tangent. -/
theorem C77_winding_number (p : List (PathEl ℝ)) (x z : ℝ) (gs : List (PathSeg ℝ)) (hp : pathSegs p = some gs) (hr : ∀ g ∈ gs, Plain g z) :
    windPath p x z = (gs.map fun g => crossings g x z).sum := by
  unfold windPath
  rw [hp]
  simp only [crossings_eq]
  exact windSegs_crossing gs x z fun g hg => (plain_iff g z).1 (hr g hg)

/-- Each piece that is stored for a curve is the part of the drawn curve between the two parameters stored with it. -/
theorem C77_pieces (g : PathSeg ℝ) (hf : ∃ u v, drawnY g u ≠ drawnY g v) {c : Segs.Cubic ℝ} {t0 t1 : ℝ} (h : (c, t0, t1) ∈ mono g) :
    0 ≤ t0 ∧ t0 < t1 ∧ t1 ≤ 1 ∧ ∀ u, ((cubic c).eval u).x = drawnX g (t0 + u * (t1 - t0)) ∧ ((cubic c).eval u).y = drawnY g (t0 + u * (t1 - t0)) := by
  have hn : (toCubic g).NotFlat := by
    obtain ⟨u, v, huv⟩ := hf
    intro h
    apply huv
    rw [← (toCubic_drawn g u).2, ← (toCubic_drawn g v).2]
    obtain ⟨h1, h2, h3⟩ := h
    simp only [Geom.Cubic.eval, Geom.bez3, ← h3, ← h2, ← h1]
    ring
  have key : ∀ (l : List Geom.MonoPiece) (u : ℝ), 0 ≤ u → Geom.Chain (toCubic g) u l → u ≤ 1 ∧ ∀ m ∈ l, 0 ≤ m.startT ∧ m.startT < m.endT ∧ m.endT ≤ 1 ∧
      m.piece = (toCubic g).subsegment m.startT m.endT := by
    intro l
    induction l with
    | nil => intro u _ h; exact ⟨le_of_eq h, by simp⟩
    | cons m l ih =>
      rintro u hu ⟨h1, h2, h3, -, h5⟩
      subst h1
      obtain ⟨i1, i2⟩ := ih m.endT (hu.trans h2.le) h5
      refine ⟨h2.le.trans i1, ?_⟩
      rintro m' (_ | ⟨_, hm⟩)
      · exact ⟨hu, h2, i1, h3⟩
      · exact i2 m' hm
  unfold mono at h
  obtain ⟨m, hm, e⟩ := List.mem_map.1 h
  obtain ⟨-, H⟩ := key _ 0 le_rfl (Geom.piecesFrom_chain hn _ 0 zero_lt_one (Geom.speedRoots_ok (toCubic g)).1).1
  obtain ⟨h1, h2, h3, h4⟩ := H m hm
  simp only [Prod.mk.injEq] at e
  obtain ⟨e1, rfl, rfl⟩ := e
  refine ⟨h1, h2, h3, fun u => ?_⟩
  have ec : cubic c = m.piece := by rw [← e1]; rfl
  rw [ec, h4, ← (toCubic_drawn g _).1, ← (toCubic_drawn g _).2, Geom.Cubic.subsegment_eval]
  exact ⟨rfl, rfl⟩

/-! ## Examples -/

/-- A parabola from `(0, 0)` over `(1, 2)` to `(2, 0)`: at height `1/2` it is crossed twice, once in each direction; the ray from `(1, 1/2)` sees only the crossing
downwards, the ray from `(2, 1/2)` both. -/
example : Plain (.quad ⟨0, 0⟩ ⟨1, 2⟩ ⟨2, 0⟩) (1 / 2) := by
  rw [plain_iff]
  refine ⟨by norm_num [toCubic, pt], by norm_num [toCubic, pt], fun u _ _ h => ?_⟩
  intro hd
  simp only [toCubic, Geom.Cubic.eval, Geom.bez3, pt, Geom.Cubic.derivAt, Geom.Cubic.deriv, Geom.bez2] at h hd
  have : u = 1 / 2 := by nlinarith
  subst this
  norm_num at h

example : ∃ u v, drawnY (.quad ⟨0, 0⟩ ⟨1, 2⟩ ⟨2, 0⟩) u ≠ drawnY (.quad ⟨0, 0⟩ ⟨1, 2⟩ ⟨2, 0⟩) v := ⟨0, 1 / 2, by norm_num [drawnY]⟩

end Verif.Full
