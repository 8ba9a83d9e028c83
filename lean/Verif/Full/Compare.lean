import Verif.Full.Env
import Verif.Geom.IProps
import Verif.Curve.Props

/-! # The comparisons of the caches: `intersect_cubics` widened by `with_y_slop` -/

namespace Verif.Full
open Verif.Segs (Segments)
open Verif.Curve
set_option linter.unusedSectionVars false

theorem toCubic_mono {g : Geom.Seg} (h : g.Down) : g.toCubic.Mono := by
  cases g with
  | cubic c => exact h
  | line p q =>
    have hd : p.y < q.y := h
    refine ⟨hd, fun t t0 t1 => ?_⟩
    simp only [Geom.Seg.toCubic, Geom.Cubic.derivAt, Geom.Cubic.deriv, Geom.bez2]
    nlinarith

theorem toCubic_at {g : Geom.Seg} (h : g.Down) {t : ℝ} (h0 : g.start.y ≤ t) (h1 : t ≤ g.stop.y) : g.toCubic.At (g.atY t) t := by
  obtain ⟨s, s0, s1, e⟩ := ((Geom.C42_to_cubic g).1 ⟨g.atY t, t⟩).2 (((Geom.C42_at_y g h t h0 h1).1 _).2 rfl)
  exact ⟨s, s0, s1, e.symm⟩

theorem toCubic_at_iff {g : Geom.Seg} (h : g.Down) {x t : ℝ} : g.toCubic.At x t ↔ g.start.y ≤ t ∧ t ≤ g.stop.y ∧ x = g.atY t := by
  constructor
  · rintro ⟨s, s0, s1, e⟩
    have hon : g.On ⟨x, t⟩ := ((Geom.C42_to_cubic g).1 ⟨x, t⟩).1 ⟨s, s0, s1, e.symm⟩
    obtain ⟨a, b⟩ := g.on_y h _ hon
    exact ⟨a, b, (g.on_iff h t x a b).1 hon⟩
  · rintro ⟨a, b, rfl⟩
    exact toCubic_at h a b

theorem Ends.unique {solve : ℝ → ℝ → ℝ → ℝ → List ℝ} {tol acc : ℝ} {c0 c1 : Geom.Cubic} {o1 o2 : CurveOrder ℝ} (h1 : Ends solve tol acc c0 c1 o1)
    (h2 : Ends solve tol acc c0 c1 o2) : o1 = o2 := by
  obtain ⟨N1, h1⟩ := h1
  obtain ⟨N2, h2⟩ := h2
  have := (h1 (max N1 N2) (le_max_left _ _)).symm.trans (h2 (max N1 N2) (le_max_right _ _))
  simpa using this

/-- The definite orders of `c` are right for the segments `a` and `b`. -/
def Right (a b : Geom.Seg) (c : CurveOrder ℝ) : Prop :=
  ∀ p ∈ c.iter, ∀ t, p.lo ≤ t → t ≤ p.hi → (p.order = .left → a.atY t < b.atY t) ∧ (p.order = .right → b.atY t < a.atY t)

/-- What is known of a comparison of two segments. -/
structure Compared (a b : Geom.Seg) (c : CurveOrder ℝ) : Prop where
  wf : WF c
  start : c.start = max a.start.y b.start.y
  stop : EndsAt c (min a.stop.y b.stop.y)
  right : Right a b c
  strict : max a.start.y b.start.y < min a.stop.y b.stop.y → ∀ p ∈ c.iter, p.order ≠ .ish → p.lo < p.hi

theorem Compared.flip {a b : Geom.Seg} {c : CurveOrder ℝ} (h : Compared a b c) : Compared b a c.flip := by
  obtain ⟨h1, h2, h3⟩ := C09_flip_wf c h.wf _ h.stop
  refine ⟨h1, ?_, ?_, ?_, ?_⟩
  · rw [h2, h.start, max_comm]
  · rw [min_comm]; exact h3
  · intro p hp t t0 t1
    have : c.flip.iter = c.iter.map fun q => ⟨q.lo, q.hi, q.order.flip⟩ := by
      simp only [CurveOrder.iter, CurveOrder.flip, pieces_flip]
    rw [this] at hp
    obtain ⟨q, hq, rfl⟩ := List.mem_map.1 hp
    obtain ⟨k1, k2⟩ := h.right q hq t t0 t1
    constructor
    · intro ho
      refine k2 ?_
      revert ho; dsimp only; cases q.order <;> simp [Order.flip]
    · intro ho
      refine k1 ?_
      revert ho; dsimp only; cases q.order <;> simp [Order.flip]
  · intro hlt p hp ho
    have : c.flip.iter = c.iter.map fun q => ⟨q.lo, q.hi, q.order.flip⟩ := by
      simp only [CurveOrder.iter, CurveOrder.flip, pieces_flip]
    rw [this] at hp
    obtain ⟨q, hq, rfl⟩ := List.mem_map.1 hp
    refine h.strict (by rw [max_comm, min_comm]; exact hlt) q hq ?_
    intro h0; rw [h0] at ho; exact ho rfl

/-- A new comparison of two segments that go down and have a height in common. -/
theorem compareNew_spec {solve : ℝ → ℝ → ℝ → ℝ → List ℝ} (hsolve : Geom.FindsRoots solve) {tol acc slop : ℝ} (hacc : 0 < acc) (hat : acc ≤ tol)
    (hslop : 0 < slop) {a b : Geom.Seg} (ha : a.Down) (hb : b.Down) (hov : max a.start.y b.start.y ≤ min a.stop.y b.stop.y) :
    ∃ out, Ends solve tol acc a.toCubic b.toCubic out ∧ WF out ∧ out.start = max a.start.y b.start.y ∧ EndsAt out (min a.stop.y b.stop.y) ∧
      Right a b out ∧ out.withYSlop false (· - slop) (· + slop) = some (compareNew solve tol acc slop a b) ∧
      Compared a b (compareNew solve tol acc slop a b) := by
  have ea0 : a.toCubic.p0 = a.start := (Geom.C42_to_cubic a).2.1
  have ea3 : a.toCubic.p3 = a.stop := (Geom.C42_to_cubic a).2.2
  have eb0 : b.toCubic.p0 = b.start := (Geom.C42_to_cubic b).2.1
  have eb3 : b.toCubic.p3 = b.stop := (Geom.C42_to_cubic b).2.2
  obtain ⟨N, out, h1, h2, h3, h4, h5⟩ := Geom.C67_definite_orders solve hsolve tol acc hacc hat a.toCubic b.toCubic (toCubic_mono ha) (toCubic_mono hb)
    (by rw [ea0, ea3, eb0, eb3]; exact hov)
  rw [ea0, eb0] at h3
  rw [ea3, eb3] at h4
  have hE : Ends solve tol acc a.toCubic b.toCubic out := ⟨N, h1⟩
  have hex : ∃ out, Ends solve tol acc a.toCubic b.toCubic out := ⟨out, hE⟩
  have hch : Classical.choose hex = out := (Classical.choose_spec hex).unique hE
  have hd : decide (slop = 0) = false := by simpa using hslop.ne'
  have hdef : compareNew solve tol acc slop a b = (out.withYSlop false (· - slop) (· + slop)).getD (CurveOrder.new 0) := by
    unfold compareNew
    rw [dif_pos hex, hch]
    congr 2
  have hr : Right a b out := by
    intro p hp t t0 t1
    have hlo := h2.2.lo_le p hp
    have hhi := wf_hi_le h2 h4 p hp
    rw [h3] at hlo
    have k1 : max a.start.y b.start.y ≤ t := hlo.1.trans t0
    have k2 : t ≤ min a.stop.y b.stop.y := t1.trans hhi
    exact h5 p hp t _ _ t0 t1 (toCubic_at ha ((le_max_left _ _).trans k1) (k2.trans (min_le_left _ _)))
      (toCubic_at hb ((le_max_right _ _).trans k1) (k2.trans (min_le_right _ _)))
  have hdown : ∀ x : ℝ, (fun x => x - slop) x ≤ x := fun x => by dsimp only; linarith
  have hup : ∀ x : ℝ, x ≤ (fun x => x + slop) x := fun x => by dsimp only; linarith
  rcases eq_or_lt_of_le hov with he | hlt
  · have hsame : out.withYSlop false (· - slop) (· + slop) = some out := by
      obtain ⟨l, l1, l2⟩ := h4
      simp [CurveOrder.withYSlop, l1, l2, h3, he]
    have hc : compareNew solve tol acc slop a b = out := by rw [hdef, hsame]; rfl
    rw [hc]
    exact ⟨out, hE, h2, h3, h4, hr, hsame, h2, h3, h4, hr, fun hlt => absurd he hlt.ne⟩
  · obtain ⟨c', k1, k2, k3, k4, k5⟩ := withYSlop_main (fun x => x - slop) (fun x => x + slop) hdown hup out h2 _ h4 (by rw [h3]; exact hlt)
    have hc : compareNew solve tol acc slop a b = c' := by rw [hdef, k1]; rfl
    refine ⟨out, hE, h2, h3, h4, hr, by rw [hc]; exact k1, ?_⟩
    rw [hc]
    refine ⟨k2, k3.trans h3, k4, ?_, ?_⟩
    · intro p hp t t0 t1
      by_cases ho : p.order = .ish
      · rw [ho]; constructor <;> intro h0 <;> cases h0
      · obtain ⟨q, hq, hk, rfl⟩ := (k5 p ho).1 hp
        exact hr q hq t ((le_newLo _ _ hup q).trans t0) (t1.trans (newHi_le _ _ hdown q))
    · intro _ p hp ho
      obtain ⟨q, hq, hk, rfl⟩ := (k5 p ho).1 hp
      exact hk.2

theorem compare_spec {solve : ℝ → ℝ → ℝ → ℝ → List ℝ} (hsolve : Geom.FindsRoots solve) {tol acc slop : ℝ} (hacc : 0 < acc) (hat : acc ≤ tol)
    (hslop : 0 < slop) (first : Nat → Nat → Bool) (segs : Nat → Geom.Seg) (i j : Nat) (ha : (segs i).Down) (hb : (segs j).Down)
    (hov : max (segs i).start.y (segs j).start.y ≤ min (segs i).stop.y (segs j).stop.y) :
    Compared (segs i) (segs j) (compare solve tol acc slop first segs i j) := by
  unfold compare
  split
  · obtain ⟨_, _, _, _, _, _, _, h⟩ := compareNew_spec hsolve hacc hat hslop ha hb hov
    exact h
  · obtain ⟨_, _, _, _, _, _, _, h⟩ := compareNew_spec hsolve hacc hat hslop hb ha (by rw [max_comm, min_comm]; exact hov)
    exact h.flip

end Verif.Full
