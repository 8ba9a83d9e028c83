import Verif.Full.Wind
import Mathlib.Algebra.BigOperators.Finprod
import Mathlib.Data.Sign.Basic

/-!
# Crossing numbers

The winding number of the specification in `Wind` counts the pieces into which the curves were cut. Here it is compared with the
usual count, which does not know about pieces: the sum over the points of the curve on the ray of the signs of the vertical speed.
-/

namespace Verif.Full
open Verif.Segs (Segments PathSeg PathEl Origin)
set_option linter.unusedSectionVars false

/-- The ray at height `z` meets the curve neither in its ends nor in a point where its tangent is horizontal. -/
def Regular (c : Geom.Cubic) (z : ℝ) : Prop :=
  c.p0.y ≠ z ∧ c.p3.y ≠ z ∧ ∀ u, 0 ≤ u → u ≤ 1 → (c.eval u).y = z → (c.derivAt u).y ≠ 0

/-- The crossing number: the sum of the signs of the vertical speed over all points of the curve on the ray that leaves `(x, z)` to the left. -/
noncomputable def crossing (c : Geom.Cubic) (x z : ℝ) : ℤ :=
  ∑ᶠ u ∈ {u : ℝ | 0 < u ∧ u < 1 ∧ (c.eval u).y = z ∧ (c.eval u).x < x}, (SignType.sign ((c.derivAt u).y) : ℤ)

/-- Segment `g` is the part of the curve between the parameters `u` and `e`, and it goes up or down all the way. -/
structure Along (c : Geom.Cubic) (g : Segs.Seg ℝ) (u e : ℝ) : Prop where
  lt : u < e
  start : g.start.y = (c.eval u).y
  stop : g.stop.y = (c.eval e).y
  way : ((∀ s t, u ≤ s → s < t → t ≤ e → (c.eval s).y < (c.eval t).y) ∧ (∀ v, u ≤ v → v ≤ e → atY g (c.eval v).y = (c.eval v).x) ∧
      ∀ v, u ≤ v → v ≤ e → 0 ≤ (c.derivAt v).y) ∨
    ((∀ s t, u ≤ s → s < t → t ≤ e → (c.eval t).y < (c.eval s).y) ∧ (∀ v, u ≤ v → v ≤ e → atY g.rev (c.eval v).y = (c.eval v).x) ∧
      ∀ v, u ≤ v → v ≤ e → (c.derivAt v).y ≤ 0)

/-- The segments are the parts of the curve from `u` on. -/
def Cut (c : Geom.Cubic) : ℝ → List (Segs.Seg ℝ) → Prop
  | u, [] => u = 1
  | u, g :: gs => ∃ e, Along c g u e ∧ Cut c e gs

theorem Cut.le {c : Geom.Cubic} : ∀ {gs : List (Segs.Seg ℝ)} {u : ℝ}, Cut c u gs → u ≤ 1 := by
  intro gs
  induction gs with
  | nil => intro u h; exact le_of_eq h
  | cons g gs ih => rintro u ⟨e, h1, h2⟩; exact h1.lt.le.trans (ih h2)

open Classical in
/-- The crossings from the parameter `u` on. -/
noncomputable def crossFrom (c : Geom.Cubic) (x z u : ℝ) : ℤ :=
  (∑ᶠ v ∈ {v : ℝ | u < v ∧ v < 1 ∧ (c.eval v).y = z ∧ (c.eval v).x < x}, (SignType.sign ((c.derivAt v).y) : ℤ)) +
    if (c.eval u).y = z ∧ 0 < (c.derivAt u).y ∧ (c.eval u).x < x then 1 else 0

open Classical in
/-- One piece. -/
theorem along_cross {c : Geom.Cubic} {g : Segs.Seg ℝ} {u e x z : ℝ} (h : Along c g u e) (hu : 0 ≤ u) (he : e ≤ 1) (hr : Regular c z) :
    {v : ℝ | u < v ∧ v < e ∧ (c.eval v).y = z ∧ (c.eval v).x < x}.Finite ∧
    cross g x z + (if (c.eval e).y = z ∧ 0 < (c.derivAt e).y ∧ (c.eval e).x < x then 1 else 0) =
      (if (c.eval u).y = z ∧ 0 < (c.derivAt u).y ∧ (c.eval u).x < x then 1 else 0) +
      (∑ᶠ v ∈ {v : ℝ | u < v ∧ v < e ∧ (c.eval v).y = z ∧ (c.eval v).x < x}, (SignType.sign ((c.derivAt v).y) : ℤ)) +
      (if (c.eval e).y = z ∧ (c.eval e).x < x then (SignType.sign ((c.derivAt e).y) : ℤ) else 0) := by
  have hlt := h.lt
  have hreg : ∀ v, u ≤ v → v ≤ e → (c.eval v).y = z → (c.derivAt v).y ≠ 0 := fun v h1 h2 h3 => hr.2.2 v (hu.trans h1) (h2.trans he) h3
  -- at most one point
  have one : ∀ v0, u < v0 → v0 < e → (c.eval v0).y = z → (∀ v, u < v → v < e → (c.eval v).y = z → v = v0) →
      {v : ℝ | u < v ∧ v < e ∧ (c.eval v).y = z ∧ (c.eval v).x < x}.Finite ∧
      (∑ᶠ v ∈ {v : ℝ | u < v ∧ v < e ∧ (c.eval v).y = z ∧ (c.eval v).x < x}, (SignType.sign ((c.derivAt v).y) : ℤ)) =
        if (c.eval v0).x < x then (SignType.sign ((c.derivAt v0).y) : ℤ) else 0 := by
    intro v0 h1 h2 h3 h4
    by_cases hx : (c.eval v0).x < x
    · have : {v : ℝ | u < v ∧ v < e ∧ (c.eval v).y = z ∧ (c.eval v).x < x} = {v0} := by
        ext v
        simp only [Set.mem_ofPred_eq, Set.mem_singleton_iff]
        constructor
        · rintro ⟨a, b, d, _⟩; exact h4 v a b d
        · rintro rfl; exact ⟨h1, h2, h3, hx⟩
      rw [this, if_pos hx, finsum_mem_singleton]
      exact ⟨Set.finite_singleton _, rfl⟩
    · have : {v : ℝ | u < v ∧ v < e ∧ (c.eval v).y = z ∧ (c.eval v).x < x} = ∅ := by
        ext v
        simp only [Set.mem_ofPred_eq, Set.mem_empty_iff_false, iff_false]
        rintro ⟨a, b, d, f⟩
        rw [h4 v a b d] at f
        exact hx f
      rw [this, if_neg hx, finsum_mem_empty]
      exact ⟨Set.finite_empty, rfl⟩
  have none : (∀ v, u < v → v < e → (c.eval v).y ≠ z) →
      {v : ℝ | u < v ∧ v < e ∧ (c.eval v).y = z ∧ (c.eval v).x < x}.Finite ∧
      (∑ᶠ v ∈ {v : ℝ | u < v ∧ v < e ∧ (c.eval v).y = z ∧ (c.eval v).x < x}, (SignType.sign ((c.derivAt v).y) : ℤ)) = 0 := by
    intro h4
    have : {v : ℝ | u < v ∧ v < e ∧ (c.eval v).y = z ∧ (c.eval v).x < x} = ∅ := by
      ext v
      simp only [Set.mem_ofPred_eq, Set.mem_empty_iff_false, iff_false]
      rintro ⟨a, b, d, f⟩
      exact h4 v a b d
    rw [this, finsum_mem_empty]
    exact ⟨Set.finite_empty, rfl⟩
  rcases h.way with ⟨hinc, hat, hder⟩ | ⟨hdec, hat, hder⟩
  · -- downwards
    have hue := hinc u e le_rfl hlt le_rfl
    have hc : cross g x z = if (c.eval u).y ≤ z ∧ z < (c.eval e).y ∧ atY g z < x then 1 else 0 := by
      rw [cross_fwd (by rw [h.start, h.stop]; exact hue.le), h.start, h.stop]
    rcases lt_trichotomy z (c.eval u).y with hz | hz | hz
    · obtain ⟨f1, f2⟩ := none fun v a b d => by have := hinc u v le_rfl a b.le; rw [d] at this; linarith
      refine ⟨f1, ?_⟩
      rw [hc, f2, if_neg (by rintro ⟨a, _⟩; linarith), if_neg (by rintro ⟨a, _⟩; linarith), if_neg (by rintro ⟨a, _⟩; linarith),
        if_neg (by rintro ⟨a, _⟩; linarith)]; rfl
    · obtain ⟨f1, f2⟩ := none fun v a b d => by have := hinc u v le_rfl a b.le; rw [d] at this; linarith
      refine ⟨f1, ?_⟩
      have hd : 0 < (c.derivAt u).y := lt_of_le_of_ne (hder u le_rfl hlt.le) (hreg u le_rfl hlt.le hz.symm).symm
      have hx := hat u le_rfl hlt.le
      rw [← hz] at hx
      rw [hc, f2, hx, if_neg (c := (c.eval e).y = z ∧ _ ∧ _) (by rintro ⟨a, _⟩; linarith), if_neg (c := (c.eval e).y = z ∧ _) (by rintro ⟨a, _⟩; linarith)]
      by_cases hlx : (c.eval u).x < x
      · rw [if_pos ⟨hz.ge, by linarith, hlx⟩, if_pos ⟨hz.symm, hd, hlx⟩]; rfl
      · rw [if_neg fun a => hlx a.2.2, if_neg fun a => hlx a.2.2]; rfl
    · rcases lt_trichotomy z (c.eval e).y with hz2 | hz2 | hz2
      · have hiv := intermediate_value_Icc hlt.le (f := fun t => (c.eval t).y) c.cont_y.continuousOn
        obtain ⟨v0, ⟨a, b⟩, d⟩ := hiv ⟨hz.le, hz2.le⟩
        have d : (c.eval v0).y = z := d
        have ha : u < v0 := lt_of_le_of_ne a fun e' => by rw [e', d] at hz; exact lt_irrefl _ hz
        have hb : v0 < e := lt_of_le_of_ne b fun e' => by rw [← e', d] at hz2; exact lt_irrefl _ hz2
        obtain ⟨f1, f2⟩ := one v0 ha hb d fun v a' b' d' => by
          rcases lt_trichotomy v v0 with k | k | k
          · have := hinc v v0 a'.le k hb.le; rw [d, d'] at this; exact absurd this (lt_irrefl _)
          · exact k
          · have := hinc v0 v ha.le k b'.le; rw [d, d'] at this; exact absurd this (lt_irrefl _)
        refine ⟨f1, ?_⟩
        have hd : 0 < (c.derivAt v0).y := lt_of_le_of_ne (hder v0 a b) (hreg v0 a b d).symm
        have hx := hat v0 a b
        rw [d] at hx
        rw [hc, f2, hx, sign_pos hd, if_neg (c := (c.eval e).y = z ∧ _ ∧ _) (by rintro ⟨a, _⟩; linarith), if_neg (c := (c.eval e).y = z ∧ _) (by rintro ⟨a, _⟩; linarith),
          if_neg (c := (c.eval u).y = z ∧ _) (by rintro ⟨a, _⟩; linarith)]
        by_cases hlx : (c.eval v0).x < x
        · rw [if_pos ⟨hz.le, hz2, hlx⟩, if_pos hlx]; rfl
        · rw [if_neg fun a => hlx a.2.2, if_neg hlx]; rfl
      · obtain ⟨f1, f2⟩ := none fun v a b d => by have := hinc v e a.le b le_rfl; rw [d] at this; linarith
        refine ⟨f1, ?_⟩
        have hd : 0 < (c.derivAt e).y := lt_of_le_of_ne (hder e hlt.le le_rfl) (hreg e hlt.le le_rfl hz2.symm).symm
        rw [hc, f2, sign_pos hd, if_neg (by rintro ⟨_, a, _⟩; linarith), if_neg (c := (c.eval u).y = z ∧ _) (by rintro ⟨a, _⟩; linarith)]
        by_cases hlx : (c.eval e).x < x
        · rw [if_pos ⟨hz2.symm, hd, hlx⟩, if_pos ⟨hz2.symm, hlx⟩]; rfl
        · rw [if_neg fun a => hlx a.2.2, if_neg fun a => hlx a.2]; rfl
      · obtain ⟨f1, f2⟩ := none fun v a b d => by have := hinc v e a.le b le_rfl; rw [d] at this; linarith
        refine ⟨f1, ?_⟩
        rw [hc, f2, if_neg (by rintro ⟨_, a, _⟩; linarith), if_neg (by rintro ⟨a, _⟩; linarith), if_neg (by rintro ⟨a, _⟩; linarith),
          if_neg (by rintro ⟨a, _⟩; linarith)]; rfl
  · -- upwards
    have hue := hdec u e le_rfl hlt le_rfl
    have hc : cross g x z = if (c.eval e).y ≤ z ∧ z < (c.eval u).y ∧ atY g.rev z < x then -1 else 0 := by
      have := cross_rev (g := g.rev) (by rw [rev_start, rev_stop, h.start, h.stop]; exact hue.le) x z
      rw [rev_rev, rev_start, rev_stop, h.start, h.stop] at this
      exact this
    rcases lt_trichotomy z (c.eval u).y with hz | hz | hz
    · rcases lt_trichotomy z (c.eval e).y with hz2 | hz2 | hz2
      · obtain ⟨f1, f2⟩ := none fun v a b d => by have := hdec v e a.le b le_rfl; rw [d] at this; linarith
        refine ⟨f1, ?_⟩
        rw [hc, f2, if_neg (by rintro ⟨a, _⟩; linarith), if_neg (by rintro ⟨a, _⟩; linarith), if_neg (by rintro ⟨a, _⟩; linarith),
          if_neg (by rintro ⟨a, _⟩; linarith)]; rfl
      · obtain ⟨f1, f2⟩ := none fun v a b d => by have := hdec v e a.le b le_rfl; rw [d] at this; linarith
        refine ⟨f1, ?_⟩
        have hd : (c.derivAt e).y < 0 := lt_of_le_of_ne (hder e hlt.le le_rfl) (hreg e hlt.le le_rfl hz2.symm)
        have hx := hat e hlt.le le_rfl
        rw [← hz2] at hx
        rw [hc, f2, hx, sign_neg hd, if_neg (c := (c.eval e).y = z ∧ _ ∧ _) (by rintro ⟨_, a, _⟩; linarith), if_neg (c := (c.eval u).y = z ∧ _) (by rintro ⟨a, _⟩; linarith)]
        by_cases hlx : (c.eval e).x < x
        · rw [if_pos ⟨hz2.ge, hz, hlx⟩, if_pos ⟨hz2.symm, hlx⟩]; rfl
        · rw [if_neg fun a => hlx a.2.2, if_neg fun a => hlx a.2]; rfl
      · have hiv := intermediate_value_Icc' hlt.le (f := fun t => (c.eval t).y) c.cont_y.continuousOn
        obtain ⟨v0, ⟨a, b⟩, d⟩ := hiv ⟨hz2.le, hz.le⟩
        have d : (c.eval v0).y = z := d
        have ha : u < v0 := lt_of_le_of_ne a fun e' => by rw [e', d] at hz; exact lt_irrefl _ hz
        have hb : v0 < e := lt_of_le_of_ne b fun e' => by rw [← e', d] at hz2; exact lt_irrefl _ hz2
        obtain ⟨f1, f2⟩ := one v0 ha hb d fun v a' b' d' => by
          rcases lt_trichotomy v v0 with k | k | k
          · have := hdec v v0 a'.le k hb.le; rw [d, d'] at this; exact absurd this (lt_irrefl _)
          · exact k
          · have := hdec v0 v ha.le k b'.le; rw [d, d'] at this; exact absurd this (lt_irrefl _)
        refine ⟨f1, ?_⟩
        have hd : (c.derivAt v0).y < 0 := lt_of_le_of_ne (hder v0 a b) (hreg v0 a b d)
        have hx := hat v0 a b
        rw [d] at hx
        rw [hc, f2, hx, sign_neg hd, if_neg (c := (c.eval e).y = z ∧ _ ∧ _) (by rintro ⟨a, _⟩; linarith), if_neg (c := (c.eval e).y = z ∧ _) (by rintro ⟨a, _⟩; linarith),
          if_neg (c := (c.eval u).y = z ∧ _) (by rintro ⟨a, _⟩; linarith)]
        by_cases hlx : (c.eval v0).x < x
        · rw [if_pos ⟨hz2.le, hz, hlx⟩, if_pos hlx]; rfl
        · rw [if_neg fun a => hlx a.2.2, if_neg hlx]; rfl
    · obtain ⟨f1, f2⟩ := none fun v a b d => by have := hdec u v le_rfl a b.le; rw [d] at this; linarith
      refine ⟨f1, ?_⟩
      have hd := hder u le_rfl hlt.le
      rw [hc, f2, if_neg (by rintro ⟨_, a, _⟩; linarith), if_neg (by rintro ⟨a, _⟩; linarith), if_neg (by rintro ⟨_, a, _⟩; linarith),
        if_neg (by rintro ⟨a, _⟩; linarith)]; rfl
    · obtain ⟨f1, f2⟩ := none fun v a b d => by have := hdec u v le_rfl a b.le; rw [d] at this; linarith
      refine ⟨f1, ?_⟩
      rw [hc, f2, if_neg (by rintro ⟨_, a, _⟩; linarith), if_neg (by rintro ⟨a, _⟩; linarith), if_neg (by rintro ⟨a, _⟩; linarith),
        if_neg (by rintro ⟨a, _⟩; linarith)]; rfl

open Classical in
theorem cut_cross {c : Geom.Cubic} {x z : ℝ} (hr : Regular c z) : ∀ (gs : List (Segs.Seg ℝ)) (u : ℝ), 0 ≤ u → Cut c u gs →
    {v : ℝ | u < v ∧ v < 1 ∧ (c.eval v).y = z ∧ (c.eval v).x < x}.Finite ∧ (gs.map fun g => cross g x z).sum = crossFrom c x z u := by
  intro gs
  induction gs with
  | nil =>
    rintro u _ rfl
    have : {v : ℝ | (1 : ℝ) < v ∧ v < 1 ∧ (c.eval v).y = z ∧ (c.eval v).x < x} = ∅ := by
      ext v
      simp only [Set.mem_ofPred_eq, Set.mem_empty_iff_false, iff_false]
      rintro ⟨a, b, _⟩; linarith
    unfold crossFrom
    rw [this, finsum_mem_empty, if_neg]
    · exact ⟨Set.finite_empty, rfl⟩
    · rintro ⟨a, _⟩
      rw [c.eval_one] at a
      exact hr.2.1 a
  | cons g gs ih =>
    rintro u hu ⟨e, ha, hc⟩
    have he := hc.le
    obtain ⟨i1, i2⟩ := ih e (hu.trans ha.lt.le) hc
    obtain ⟨a1, a2⟩ := along_cross (x := x) ha hu he hr
    obtain ⟨A, hA⟩ : ∃ A, A = {v : ℝ | u < v ∧ v < e ∧ (c.eval v).y = z ∧ (c.eval v).x < x} := ⟨_, rfl⟩
    obtain ⟨B, hB⟩ : ∃ B, B = {v : ℝ | v = e ∧ (c.eval e).y = z ∧ (c.eval e).x < x} := ⟨_, rfl⟩
    obtain ⟨R, hR⟩ : ∃ R, R = {v : ℝ | e < v ∧ v < 1 ∧ (c.eval v).y = z ∧ (c.eval v).x < x} := ⟨_, rfl⟩
    have hfB : B.Finite := (Set.finite_singleton e).subset (by rw [hB]; rintro v ⟨h, _⟩; exact h)
    have hsplit : {v : ℝ | u < v ∧ v < 1 ∧ (c.eval v).y = z ∧ (c.eval v).x < x} = A ∪ (B ∪ R) := by
      rw [hA, hB, hR]
      ext v
      simp only [Set.mem_ofPred_eq, Set.mem_union]
      constructor
      · rintro ⟨a, b, d, f⟩
        rcases lt_trichotomy v e with k | k | k
        · exact .inl ⟨a, k, d, f⟩
        · subst k; exact .inr (.inl ⟨rfl, d, f⟩)
        · exact .inr (.inr ⟨k, b, d, f⟩)
      · rintro (⟨a, b, d, f⟩ | ⟨rfl, d, f⟩ | ⟨a, b, d, f⟩)
        · exact ⟨a, by linarith, d, f⟩
        · refine ⟨ha.lt, lt_of_le_of_ne he ?_, d, f⟩
          rintro rfl
          rw [c.eval_one] at d
          exact hr.2.1 d
        · exact ⟨by linarith [ha.lt], b, d, f⟩
    have hsB : (∑ᶠ v ∈ B, (SignType.sign ((c.derivAt v).y) : ℤ)) = if (c.eval e).y = z ∧ (c.eval e).x < x then (SignType.sign ((c.derivAt e).y) : ℤ) else 0 := by
      by_cases hb : (c.eval e).y = z ∧ (c.eval e).x < x
      · have : B = {e} := by rw [hB]; ext v; simp [hb]
        rw [this, finsum_mem_singleton, if_pos hb]
      · have : B = ∅ := by
          rw [hB]; ext v
          simp only [Set.mem_ofPred_eq, Set.mem_empty_iff_false, iff_false]
          rintro ⟨_, k⟩; exact hb k
        rw [this, finsum_mem_empty, if_neg hb]
    have hfA : A.Finite := by rw [hA]; exact a1
    have hfR : R.Finite := by rw [hR]; exact i1
    have dBR : Disjoint B R := by
      rw [Set.disjoint_left, hB, hR]
      rintro v ⟨rfl, _⟩ ⟨k, _⟩; exact lt_irrefl _ k
    have dA : Disjoint A (B ∪ R) := by
      rw [Set.disjoint_left, hA, hB, hR]
      rintro v ⟨_, k, _⟩ (⟨rfl, _⟩ | ⟨k', _⟩)
      · exact lt_irrefl _ k
      · linarith
    have hsum : (∑ᶠ v ∈ A ∪ (B ∪ R), (SignType.sign ((c.derivAt v).y) : ℤ)) =
        (∑ᶠ v ∈ A, (SignType.sign ((c.derivAt v).y) : ℤ)) + ((∑ᶠ v ∈ B, (SignType.sign ((c.derivAt v).y) : ℤ)) + ∑ᶠ v ∈ R, (SignType.sign ((c.derivAt v).y) : ℤ)) := by
      rw [finsum_mem_union dA hfA (hfB.union hfR), finsum_mem_union dBR hfB hfR]
    refine ⟨by rw [hsplit]; exact hfA.union (hfB.union hfR), ?_⟩
    rw [List.map_cons, List.sum_cons, i2]
    unfold crossFrom
    rw [hsplit, hsum, hsB]
    rw [← hA] at a2
    rw [← hR]
    linarith

open Classical in
theorem cut_crossing {c : Geom.Cubic} {x z : ℝ} (hr : Regular c z) {gs : List (Segs.Seg ℝ)} (h : Cut c 0 gs) :
    (gs.map fun g => cross g x z).sum = crossing c x z := by
  rw [(cut_cross (x := x) hr gs 0 le_rfl h).2]
  unfold crossFrom crossing
  rw [if_neg, add_zero]
  rintro ⟨a, _⟩
  rw [c.eval_zero] at a
  exact hr.1 a

/-! ## The pieces of a path segment -/

theorem rev_eval (c : Geom.Cubic) (u : ℝ) : c.rev.eval u = c.eval (1 - u) := by
  ext <;> simp only [Geom.Cubic.rev, Geom.Cubic.eval, Geom.bez3] <;> ring

/-- A monotone piece of the curve. -/
theorem along_piece {c : Geom.Cubic} {u e : ℝ} (hue : u < e) (hm : (c.subsegment u e).Mono ∨ (c.subsegment u e).rev.Mono) (g : Segs.Seg ℝ)
    (hg : seg g = .cubic (c.subsegment u e)) : Along c g u e := by
  have hd : 0 < e - u := by linarith
  have hstart : g.start.y = (c.eval u).y := by
    have := congrArg Geom.Seg.start hg
    rw [seg_start] at this
    exact congrArg Geom.Pt.y this
  have hstop : g.stop.y = (c.eval e).y := by
    have := congrArg Geom.Seg.stop hg
    rw [seg_stop] at this
    exact congrArg Geom.Pt.y this
  have hpar : ∀ v, u ≤ v → v ≤ e → 0 ≤ (v - u) / (e - u) ∧ (v - u) / (e - u) ≤ 1 ∧ u + (v - u) / (e - u) * (e - u) = v := fun v h0 h1 =>
    ⟨div_nonneg (by linarith) hd.le, by rw [div_le_one hd]; linarith, by field_simp; ring⟩
  have hev : ∀ v, u ≤ v → v ≤ e → (c.subsegment u e).eval ((v - u) / (e - u)) = c.eval v := fun v h0 h1 => by
    rw [Geom.Cubic.subsegment_eval, (hpar v h0 h1).2.2]
  have hlt : ∀ s t, s < t → (s - u) / (e - u) < (t - u) / (e - u) := fun s t h => by gcongr
  refine ⟨hue, hstart, hstop, ?_⟩
  rcases hm with hm | hm
  · left
    have hinc : ∀ s t, u ≤ s → s < t → t ≤ e → (c.eval s).y < (c.eval t).y := by
      intro s t h0 h1 h2
      have := hm.strict (hpar s h0 (h1.le.trans h2)).1 (hlt s t h1) (hpar t (h0.trans h1.le) h2).2.1
      rwa [hev s h0 (h1.le.trans h2), hev t (h0.trans h1.le) h2] at this
    refine ⟨hinc, ?_, ?_⟩
    · intro v h0 h1
      have hdown : (seg g).Down := by rw [hg]; exact hm
      have hy0 : (seg g).start.y ≤ (c.eval v).y := by
        rw [seg_start]; change g.start.y ≤ _
        rw [hstart]
        rcases eq_or_lt_of_le h0 with rfl | h0
        · exact le_rfl
        · exact (hinc u v le_rfl h0 h1).le
      have hy1 : (c.eval v).y ≤ (seg g).stop.y := by
        rw [seg_stop]; change _ ≤ g.stop.y
        rw [hstop]
        rcases eq_or_lt_of_le h1 with rfl | h1
        · exact le_rfl
        · exact (hinc v e h0 h1 le_rfl).le
      refine (((seg g).on_iff hdown _ _ hy0 hy1).1 ?_).symm
      rw [hg]
      exact ⟨_, (hpar v h0 h1).1, (hpar v h0 h1).2.1, (hev v h0 h1).symm⟩
    · intro v h0 h1
      have := hm.2 _ (hpar v h0 h1).1 (hpar v h0 h1).2.1
      rw [Geom.sub_derivAt, (hpar v h0 h1).2.2] at this
      exact nonneg_of_mul_nonneg_right this hd
  · right
    have hrev : ∀ v, u ≤ v → v ≤ e → (c.subsegment u e).rev.eval (1 - (v - u) / (e - u)) = c.eval v := fun v h0 h1 => by
      rw [rev_eval, sub_sub_cancel, hev v h0 h1]
    have hdec : ∀ s t, u ≤ s → s < t → t ≤ e → (c.eval t).y < (c.eval s).y := by
      intro s t h0 h1 h2
      have a := hpar s h0 (h1.le.trans h2)
      have b := hpar t (h0.trans h1.le) h2
      have := hm.strict (s := 1 - (t - u) / (e - u)) (t := 1 - (s - u) / (e - u)) (by linarith [b.2.1]) (by linarith [hlt s t h1]) (by linarith [a.1])
      rwa [hrev s h0 (h1.le.trans h2), hrev t (h0.trans h1.le) h2] at this
    have hg' : seg g.rev = .cubic (c.subsegment u e).rev := by
      cases g with
      | line p q => simp [seg] at hg
      | cubic p0 p1 p2 p3 =>
        simp only [seg, Geom.Seg.cubic.injEq] at hg
        simp only [Segs.Seg.rev, seg, ← hg]
        rfl
    refine ⟨hdec, ?_, ?_⟩
    · intro v h0 h1
      have hdown : (seg g.rev).Down := by rw [hg']; exact hm
      have hy0 : (seg g.rev).start.y ≤ (c.eval v).y := by
        rw [seg_start, rev_start]; change g.stop.y ≤ _
        rw [hstop]
        rcases eq_or_lt_of_le h1 with rfl | h1
        · exact le_rfl
        · exact (hdec v e h0 h1 le_rfl).le
      have hy1 : (c.eval v).y ≤ (seg g.rev).stop.y := by
        rw [seg_stop, rev_stop]; change _ ≤ g.start.y
        rw [hstart]
        rcases eq_or_lt_of_le h0 with rfl | h0
        · exact le_rfl
        · exact (hdec u v le_rfl h0 h1).le
      refine (((seg g.rev).on_iff hdown _ _ hy0 hy1).1 ?_).symm
      rw [hg']
      have a := hpar v h0 h1
      exact ⟨_, by linarith [a.2.1], by linarith [a.1], (hrev v h0 h1).symm⟩
    · intro v h0 h1
      have a := hpar v h0 h1
      have := hm.2 (1 - (v - u) / (e - u)) (by linarith [a.2.1]) (by linarith [a.1])
      rw [Geom.rev_derivAt, sub_sub_cancel, Geom.sub_derivAt, a.2.2] at this
      by_contra hn
      have := mul_pos hd (not_le.1 hn)
      linarith

/-- The segment that is stored for a piece. -/
noncomputable def pieceSeg (m : Geom.MonoPiece) : Segs.Seg ℝ :=
  if (unpt m.piece.p0).y = (unpt m.piece.p3).y then .line (unpt m.piece.p0) (unpt m.piece.p3)
  else .cubic (unpt m.piece.p0) (unpt m.piece.p1) (unpt m.piece.p2) (unpt m.piece.p3)

theorem chain_cut (c : Geom.Cubic) (l : List Geom.MonoPiece) : ∀ u, Geom.Chain c u l → Cut c u (l.map pieceSeg) := by
  induction l with
  | nil => intro u h; exact h
  | cons p ps ih =>
    rintro u ⟨h1, h2, h3, h4, h5⟩
    subst h1
    refine ⟨p.endT, along_piece h2 (by rw [← h3]; exact h4) _ ?_, ih _ h5⟩
    have hne : ¬ (unpt p.piece.p0).y = (unpt p.piece.p3).y := by
      intro he
      have he : p.piece.p0.y = p.piece.p3.y := he
      rcases h4 with h4 | h4
      · exact absurd he h4.1.ne
      · exact absurd he h4.1.ne'
    unfold pieceSeg
    rw [if_neg hne, ← h3]
    rfl

theorem cross_flat {g : Segs.Seg ℝ} (h : g.start.y = g.stop.y) (x z : ℝ) : cross g x z = 0 := by
  rw [cross_fwd h.le, if_neg]
  rintro ⟨a, b, _⟩
  linarith

/-- A curve cut into its pieces. -/
theorem curve_crossing (c : Geom.Cubic) {x z : ℝ} (hr : Regular c z) :
    (((Geom.monotonicPieces c).map pieceSeg).map fun g => cross g x z).sum = crossing c x z := by
  by_cases hf : c.NotFlat
  · exact cut_crossing hr (chain_cut c _ 0 (Geom.piecesFrom_chain hf _ 0 zero_lt_one (Geom.speedRoots_ok c).1).1)
  · have h0 : crossing c x z = 0 := by
      unfold crossing
      have : {u : ℝ | 0 < u ∧ u < 1 ∧ (c.eval u).y = z ∧ (c.eval u).x < x} = ∅ := by
        ext u
        simp only [Set.mem_ofPred_eq, Set.mem_empty_iff_false, iff_false]
        rintro ⟨_, _, h, _⟩
        apply hr.1
        rw [← h]
        unfold Geom.Cubic.NotFlat at hf
        rw [not_not] at hf
        simp only [Geom.Cubic.eval, ← hf.2.2, ← hf.2.1, ← hf.1, Geom.bez3]
        ring
      rw [this, finsum_mem_empty]
    rw [h0]
    obtain ⟨h1, h2⟩ := Geom.C65_flat c hf
    by_cases he : c.p0 = c.p3
    · rw [h2 he]; rfl
    · obtain ⟨q, e, e0, e3, _⟩ := h1 he
      rw [e]
      have hy : c.p0.y = c.p3.y := by
        unfold Geom.Cubic.NotFlat at hf
        rw [not_not] at hf
        rw [hf.1, hf.2.1, hf.2.2]
      have : pieceSeg ⟨0, 1, q⟩ = .line (unpt q.p0) (unpt q.p3) := by
        unfold pieceSeg
        exact if_pos (by simp only [e0, e3]; exact hy)
      simp only [List.map_cons, List.map_nil, this, List.sum_cons, List.sum_nil, add_zero]
      apply cross_flat
      change q.p0.y = q.p3.y
      rw [e0, e3]; exact hy

/-- A straight line is one piece. -/
theorem line_cut (p q : Segs.Pt ℝ) (h : p.y ≠ q.y) : Cut (toCubic (.line p q)) 0 [.line p q] := by
  have hev : ∀ v, (toCubic (.line p q)).eval v = (pt p).affine (pt q) v := by
    intro v
    ext <;> simp only [toCubic, Geom.Cubic.eval, Geom.bez3, Geom.Pt.affine, pt] <;> ring
  have hdy : ∀ v, ((toCubic (.line p q)).derivAt v).y = q.y - p.y := by
    intro v; simp only [toCubic, Geom.Cubic.derivAt, Geom.Cubic.deriv, Geom.bez2, pt]; ring
  have hy : ∀ v, ((toCubic (.line p q)).eval v).y = p.y + v * (q.y - p.y) := by
    intro v; rw [hev]; simp only [Geom.Pt.affine, pt]; ring
  have hx : ∀ v, ((toCubic (.line p q)).eval v).x = p.x + v * (q.x - p.x) := by
    intro v; rw [hev]; simp only [Geom.Pt.affine, pt]; ring
  refine ⟨1, ⟨zero_lt_one, ?_, ?_, ?_⟩, rfl⟩
  · rw [hy]; simp [Segs.Seg.start]
  · rw [hy]; simp [Segs.Seg.stop]
  · rcases lt_or_gt_of_ne h with hlt | hgt
    · left
      refine ⟨?_, ?_, ?_⟩
      · intro s t _ hst _
        rw [hy, hy]; nlinarith
      · intro v _ _
        rw [hy, hx]
        change (Geom.Seg.line (pt p) (pt q)).atY _ = _
        rw [Geom.Seg.atY_line (p0 := pt p) (p1 := pt q) hlt]
        have : q.y - p.y ≠ 0 := by linarith
        simp only [pt]
        field_simp
        ring
      · intro v _ _; rw [hdy]; linarith
    · right
      refine ⟨?_, ?_, ?_⟩
      · intro s t _ hst _
        rw [hy, hy]; nlinarith
      · intro v _ _
        rw [hy, hx]
        change (Geom.Seg.line (pt q) (pt p)).atY _ = _
        rw [Geom.Seg.atY_line (p0 := pt q) (p1 := pt p) hgt]
        have : p.y - q.y ≠ 0 := by linarith
        simp only [pt]
        field_simp
        ring
      · intro v _ _; rw [hdy]; linarith

/-- **Crossings do not depend on the pieces.** At a regular height the crossings of the pieces of a path segment add up to its crossing number. -/
theorem seg_crossing (g : PathSeg ℝ) {x z : ℝ} (hr : Regular (toCubic g) z) :
    ((Segs.segOrigins 0 1 mono g).map fun o => cross o.curve x z).sum = crossing (toCubic g) x z := by
  have curve : ∀ g : PathSeg ℝ, Regular (toCubic g) z → (((mono g).map fun m : Segs.Cubic ℝ × ℝ × ℝ =>
      (⟨if m.1.p0.y = m.1.p3.y then .line m.1.p0 m.1.p3 else .cubic m.1.p0 m.1.p1 m.1.p2 m.1.p3, m.2, g⟩ : Origin ℝ)).map fun o => cross o.curve x z).sum =
      crossing (toCubic g) x z := by
    intro g hr
    rw [← curve_crossing (toCubic g) hr]
    unfold mono
    rw [List.map_map, List.map_map, List.map_map]
    rfl
  cases g with
  | line p q =>
    simp only [Segs.segOrigins]
    by_cases he : p = q
    · subst he
      rw [if_pos rfl]
      have : crossing (toCubic (.line p p)) x z = 0 := by
        unfold crossing
        have : {u : ℝ | 0 < u ∧ u < 1 ∧ ((toCubic (.line p p)).eval u).y = z ∧ ((toCubic (.line p p)).eval u).x < x} = ∅ := by
          ext u
          simp only [Set.mem_ofPred_eq, Set.mem_empty_iff_false, iff_false]
          rintro ⟨_, _, h, _⟩
          apply hr.1
          rw [← h]
          simp only [toCubic, Geom.Cubic.eval, Geom.bez3, pt]; ring
        rw [this, finsum_mem_empty]
      rw [this]; rfl
    · rw [if_neg he]
      by_cases hy : p.y = q.y
      · have h0 : crossing (toCubic (.line p q)) x z = 0 := by
          unfold crossing
          have : {u : ℝ | 0 < u ∧ u < 1 ∧ ((toCubic (.line p q)).eval u).y = z ∧ ((toCubic (.line p q)).eval u).x < x} = ∅ := by
            ext u
            simp only [Set.mem_ofPred_eq, Set.mem_empty_iff_false, iff_false]
            rintro ⟨_, _, h, _⟩
            apply hr.1
            rw [← h]
            simp only [toCubic, Geom.Cubic.eval, Geom.bez3, pt, hy]; ring
          rw [this, finsum_mem_empty]
        rw [h0]
        simp only [List.map_cons, List.map_nil, List.sum_cons, List.sum_nil, add_zero]
        exact cross_flat (g := .line p q) hy x z
      · have := cut_crossing (x := x) hr (line_cut p q hy)
        rw [← this]
        rfl
  | quad p q r => exact curve _ hr
  | cubic p q r t => exact curve _ hr

/-- At a regular height the winding number of a list of segments is the sum of their crossing numbers. -/
theorem windSegs_crossing (gs : List (PathSeg ℝ)) (x z : ℝ) (hr : ∀ g ∈ gs, Regular (toCubic g) z) :
    windSegs gs x z = (gs.map fun g => crossing (toCubic g) x z).sum := by
  unfold windSegs
  induction gs with
  | nil => rfl
  | cons g gs ih =>
    rw [List.flatMap_cons, List.map_append, List.sum_append, List.map_cons, List.sum_cons, ih fun g' hg => hr g' (List.mem_cons_of_mem _ hg),
      seg_crossing g (hr g List.mem_cons_self)]

end Verif.Full
