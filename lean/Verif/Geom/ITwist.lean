import Verif.Geom.IStep

/-! Lemmas for `intersect_cubics` (no claims): two increasing functions and their inverses. -/

namespace Verif.Geom
open Verif.Curve

/-- `g` increases strictly on `[y0, y1]` and `h` is its inverse. -/
structure Inv (y0 y1 : ℝ) (g h : ℝ → ℝ) : Prop where
  lt : ∀ a b, y0 ≤ a → a < b → b ≤ y1 → g a < g b
  inv : ∀ v, g y0 ≤ v → v ≤ g y1 → y0 ≤ h v ∧ h v ≤ y1 ∧ g (h v) = v

namespace Inv
variable {y0 y1 : ℝ} {g h : ℝ → ℝ}

theorem le (t : Inv y0 y1 g h) {a b : ℝ} (ha : y0 ≤ a) (hab : a ≤ b) (hb : b ≤ y1) : g a ≤ g b := by
  rcases eq_or_lt_of_le hab with e | e
  · rw [e]
  · exact (t.lt a b ha e hb).le

theorem lt_iff (t : Inv y0 y1 g h) {v y : ℝ} (v0 : g y0 ≤ v) (v1 : v ≤ g y1) (hy0 : y0 ≤ y) (hy1 : y ≤ y1) : g y < v ↔ y < h v := by
  obtain ⟨a, b, c⟩ := t.inv v v0 v1
  constructor
  · intro hlt
    by_contra hc
    have := t.le a (not_lt.1 hc) hy1
    rw [c] at this; linarith
  · intro hlt
    have := t.lt y (h v) hy0 hlt b
    rwa [c] at this

theorem gt_iff (t : Inv y0 y1 g h) {v y : ℝ} (v0 : g y0 ≤ v) (v1 : v ≤ g y1) (hy0 : y0 ≤ y) (hy1 : y ≤ y1) : v < g y ↔ h v < y := by
  obtain ⟨a, b, c⟩ := t.inv v v0 v1
  constructor
  · intro hlt
    by_contra hc
    have := t.le hy0 (not_lt.1 hc) b
    rw [c] at this; linarith
  · intro hlt
    have := t.lt (h v) y a hlt hy1
    rwa [c] at this

theorem mono (t : Inv y0 y1 g h) {v w : ℝ} (v0 : g y0 ≤ v) (hvw : v ≤ w) (w1 : w ≤ g y1) : h v ≤ h w := by
  obtain ⟨a, b, c⟩ := t.inv v v0 (hvw.trans w1)
  by_contra hc
  obtain ⟨a', b', c'⟩ := t.inv w (v0.trans hvw) w1
  have := t.lt _ _ a' (not_le.1 hc) b
  rw [c, c'] at this; linarith

theorem at_start (t : Inv y0 y1 g h) (hy : y0 ≤ y1) : h (g y0) = y0 := by
  obtain ⟨a, b, c⟩ := t.inv (g y0) le_rfl (t.le le_rfl hy le_rfl)
  rcases eq_or_lt_of_le a with e | e
  · exact e.symm
  · have := t.lt y0 _ le_rfl e b; linarith

theorem at_end (t : Inv y0 y1 g h) (hy : y0 ≤ y1) : h (g y1) = y1 := by
  obtain ⟨a, b, c⟩ := t.inv (g y1) (t.le le_rfl hy le_rfl) le_rfl
  rcases eq_or_lt_of_le b with e | e
  · exact e
  · have := t.lt _ y1 a e le_rfl; linarith

end Inv

/-- The order of two functions. -/
def TQ (g0 g1 : ℝ → ℝ) : Order → ℝ → Prop
  | .left, y => g0 y < g1 y
  | .right, y => g1 y < g0 y
  | .ish, _ => True

/-- The order of two inverse functions. -/
def TQ' (h0 h1 : ℝ → ℝ) : Order → ℝ → Prop
  | .left, v => h1 v < h0 v
  | .right, v => h0 v < h1 v
  | .ish, _ => True

theorem TQ_ex (g0 g1 : ℝ → ℝ) (t : ℝ) : TQ g0 g1 .left t → TQ g0 g1 .right t → False := fun a b => lt_asymm a b

section
variable {y0 y1 : ℝ} {g0 g1 h0 h1 : ℝ → ℝ}

/-- Between the averages of the ends of an interval on which `h1 < h0` we have `g0 < g1`. -/
theorem twist_left (t0 : Inv y0 y1 g0 h0) (t1 : Inv y0 y1 g1 h1) {lo hi y : ℝ} (hl0 : g0 y0 ≤ lo) (hl1 : g1 y0 ≤ lo) (hlh : lo ≤ hi)
    (hh0 : hi ≤ g0 y1) (hh1 : hi ≤ g1 y1) (ha : (h0 lo + h1 lo) / 2 ≤ y) (hb : y ≤ (h0 hi + h1 hi) / 2)
    (hord : ∀ v, lo ≤ v → v ≤ hi → h1 v < h0 v) : g0 y < g1 y := by
  obtain ⟨a1, a2, a3⟩ := t0.inv lo hl0 (hlh.trans hh0)
  obtain ⟨b1, b2, b3⟩ := t1.inv lo hl1 (hlh.trans hh1)
  obtain ⟨c1, c2, c3⟩ := t0.inv hi (hl0.trans hlh) hh0
  obtain ⟨d1, d2, d3⟩ := t1.inv hi (hl1.trans hlh) hh1
  have hy0 : y0 ≤ y := by linarith
  have hy1 : y ≤ y1 := by linarith
  by_contra hc
  have hc := not_lt.1 hc
  have k1 : lo ≤ g0 y := by
    by_contra hk
    have hk := not_le.1 hk
    have e0 := (t0.lt_iff hl0 (hlh.trans hh0) hy0 hy1).1 hk
    have e1 := (t1.lt_iff hl1 (hlh.trans hh1) hy0 hy1).1 (hc.trans_lt hk)
    linarith
  have k2 : g1 y ≤ hi := by
    by_contra hk
    have hk := not_le.1 hk
    have e0 := (t0.gt_iff (hl0.trans hlh) hh0 hy0 hy1).1 (hk.trans_le hc)
    have e1 := (t1.gt_iff (hl1.trans hlh) hh1 hy0 hy1).1 hk
    linarith
  have m1 : lo ≤ max lo (g1 y) := le_max_left _ _
  have m2 : max lo (g1 y) ≤ hi := max_le hlh k2
  have m3 : max lo (g1 y) ≤ g0 y := max_le k1 hc
  have m4 : g1 y ≤ max lo (g1 y) := le_max_right _ _
  have h := hord _ m1 m2
  have q0 : h0 (max lo (g1 y)) ≤ y := by
    by_contra hk
    have := (t0.lt_iff (hl0.trans m1) (m2.trans hh0) hy0 hy1).2 (not_le.1 hk)
    linarith
  have q1 : y ≤ h1 (max lo (g1 y)) := by
    by_contra hk
    have := (t1.gt_iff (hl1.trans m1) (m2.trans hh1) hy0 hy1).2 (not_le.1 hk)
    linarith
  linarith

/-- Before the average of the starts. -/
theorem twist_start (hy : y0 ≤ y1) (t0 : Inv y0 y1 g0 h0) (t1 : Inv y0 y1 g1 h1) {z0 y : ℝ} (hz0 : z0 = max (g0 y0) (g1 y0)) (hz1 : z0 ≤ g0 y1)
    (hz2 : z0 ≤ g1 y1) (ha : y0 ≤ y) (hb : y ≤ (h0 z0 + h1 z0) / 2) (hord : h1 z0 < h0 z0) : g0 y < g1 y := by
  have e0 : g0 y0 ≤ z0 := by rw [hz0]; exact le_max_left _ _
  have e1 : g1 y0 ≤ z0 := by rw [hz0]; exact le_max_right _ _
  obtain ⟨a1, a2, a3⟩ := t0.inv z0 e0 hz1
  obtain ⟨b1, b2, b3⟩ := t1.inv z0 e1 hz2
  rcases max_choice (g0 y0) (g1 y0) with h | h
  · exfalso
    have : h0 z0 = y0 := by rw [hz0, h]; exact t0.at_start hy
    linarith
  · have hz : z0 = g1 y0 := by rw [hz0, h]
    have hlt : y < h0 z0 := by linarith
    have k := (t0.lt_iff e0 hz1 ha (by linarith)).2 hlt
    have k2 := t1.le le_rfl ha (show y ≤ y1 by linarith)
    linarith

/-- After the average of the ends. -/
theorem twist_end (hy : y0 ≤ y1) (t0 : Inv y0 y1 g0 h0) (t1 : Inv y0 y1 g1 h1) {z1 y : ℝ} (hz0 : z1 = min (g0 y1) (g1 y1)) (hz1 : g0 y0 ≤ z1)
    (hz2 : g1 y0 ≤ z1) (ha : (h0 z1 + h1 z1) / 2 ≤ y) (hb : y ≤ y1) (hord : g0 ((h0 z1 + h1 z1) / 2) < g1 ((h0 z1 + h1 z1) / 2)) : g0 y < g1 y := by
  have e0 : z1 ≤ g0 y1 := by rw [hz0]; exact min_le_left _ _
  have e1 : z1 ≤ g1 y1 := by rw [hz0]; exact min_le_right _ _
  obtain ⟨a1, a2, a3⟩ := t0.inv z1 hz1 e0
  obtain ⟨b1, b2, b3⟩ := t1.inv z1 hz2 e1
  rcases min_choice (g0 y1) (g1 y1) with h | h
  · have hz : z1 = g0 y1 := by rw [hz0, h]
    have hq : h0 z1 = y1 := by rw [hz]; exact t0.at_end hy
    have l1 : z1 ≤ g1 y := by
      by_contra hc
      have := (t1.lt_iff hz2 e1 (by linarith) hb).1 (not_le.1 hc)
      linarith
    rcases eq_or_lt_of_le hb with e | e
    · subst e
      rcases eq_or_lt_of_le l1 with e' | e'
      · have hq' : h1 z1 = y := by rw [e']; exact t1.at_end hy
        rw [hq, hq'] at hord
        have : (y + y) / 2 = y := by ring
        rw [this] at hord
        exact hord
      · linarith
    · have := t0.lt y y1 (by linarith) e le_rfl
      linarith
  · exfalso
    have hz : z1 = g1 y1 := by rw [hz0, h]
    have hq : h1 z1 = y1 := by rw [hz]; exact t1.at_end hy
    have k1 : g1 ((h0 z1 + h1 z1) / 2) ≤ z1 := by
      have := t1.le (a := (h0 z1 + h1 z1) / 2) (b := y1) (by linarith) (by linarith) le_rfl
      linarith
    have k2 : z1 ≤ g0 ((h0 z1 + h1 z1) / 2) := by
      by_contra hc
      have := (t0.lt_iff hz1 e0 (by linarith) (by linarith)).1 (not_le.1 hc)
      linarith
    linarith

theorem TQ_swap (o : Order) (y : ℝ) : TQ g0 g1 o y ↔ TQ g1 g0 o.flip y := by cases o <;> rfl
theorem TQ'_swap (o : Order) (y : ℝ) : TQ' h0 h1 o y ↔ TQ' h1 h0 o.flip y := by cases o <;> rfl

theorem twist_mid (t0 : Inv y0 y1 g0 h0) (t1 : Inv y0 y1 g1 h1) {lo hi y : ℝ} (hl0 : g0 y0 ≤ lo) (hl1 : g1 y0 ≤ lo) (hlh : lo ≤ hi)
    (hh0 : hi ≤ g0 y1) (hh1 : hi ≤ g1 y1) (ha : (h0 lo + h1 lo) / 2 ≤ y) (hb : y ≤ (h0 hi + h1 hi) / 2) {o : Order}
    (hord : ∀ v, lo ≤ v → v ≤ hi → TQ' h0 h1 o v) : TQ g0 g1 o y := by
  cases o with
  | ish => trivial
  | left => exact twist_left t0 t1 hl0 hl1 hlh hh0 hh1 ha hb hord
  | right => exact twist_left t1 t0 hl1 hl0 hlh hh1 hh0 (by linarith) (by linarith) hord

/-- The transfer of the rotated comparison, for any height `H` that is the average of `h0` and `h1`. -/
theorem transfer_ok {Q : Order → ℝ → Prop} (hex : ∀ t, Q .left t → Q .right t → False) (hQ : ∀ o t, y0 ≤ t → t ≤ y1 → TQ g0 g1 o t → Q o t) (t0 : Inv y0 y1 g0 h0) (t1 : Inv y0 y1 g1 h1) {r0 r1 : Cubic} {s : ℝ} {z : Pt} {z0 z1 : ℝ}
    (hz0 : z0 = max (g0 y0) (g1 y0)) (hz1 : z1 = min (g0 y1) (g1 y1))
    (hH : ∀ v, z0 ≤ v → v ≤ z1 → (rotPt (-s) z ⟨(solveX r0 v + solveX r1 v) / 2, v⟩).y = (h0 v + h1 v) / 2) {S : ℝ} (ps : List (Piece ℝ)) (hne : ps ≠ []) :
    ∀ {lo cur : ℝ} {out : CurveOrder ℝ}, z0 ≤ lo → Cons lo z1 ps → (∀ p ∈ ps, ∀ v, p.lo ≤ v → v ≤ p.hi → TQ' h0 h1 p.order v) →
    (∀ o y, cur ≤ y → y ≤ (h0 lo + h1 lo) / 2 → TQ' h0 h1 o lo → TQ g0 g1 o y) → y0 ≤ cur → cur ≤ (h0 lo + h1 lo) / 2 → Grow Q S cur out →
    ∃ out', transfer r0 r1 s z y0 y1 out ps = some out' ∧ Done Q S ((h0 z1 + h1 z1) / 2) out' := by
  induction ps with
  | nil => exact absurd rfl hne
  | cons p ps ih =>
    intro lo cur out hlo hc hS hcur hcy hcl hg
    obtain ⟨c1, c2, c3⟩ := hc
    subst c1
    have hi1 := c3.le
    have p0 : g0 y0 ≤ p.lo := le_trans (by rw [hz0]; exact le_max_left _ _) hlo
    have p1 : g1 y0 ≤ p.lo := le_trans (by rw [hz0]; exact le_max_right _ _) hlo
    have q0 : p.hi ≤ g0 y1 := hi1.trans (by rw [hz1]; exact min_le_left _ _)
    have q1 : p.hi ≤ g1 y1 := hi1.trans (by rw [hz1]; exact min_le_right _ _)
    have m0 := t0.mono p0 c2 q0
    have m1 := t1.mono p1 c2 q1
    obtain ⟨i1, i2, _⟩ := t0.inv p.hi (p0.trans c2) q0
    obtain ⟨j1, j2, _⟩ := t1.inv p.hi (p1.trans c2) q1
    have hpos : min (max (rotPt (-s) z ⟨(solveX r0 p.hi + solveX r1 p.hi) / 2, p.hi⟩).y y0) y1 = (h0 p.hi + h1 p.hi) / 2 := by
      rw [hH _ (hlo.trans c2) hi1, max_eq_left (by linarith), min_eq_left (by linarith)]
    obtain ⟨o1, k1, k2⟩ := grow_push (o := p.order) (e := (h0 p.hi + h1 p.hi) / 2) hex hg (by linarith) fun t ht0 ht1 => by
      refine hQ _ _ (hcy.trans ht0) (by linarith) ?_
      rcases le_total t ((h0 p.lo + h1 p.lo) / 2) with hle | hle
      · exact hcur _ _ ht0 hle (hS p (by simp) p.lo le_rfl c2)
      · exact twist_mid t0 t1 p0 p1 c2 q0 q1 hle ht1 (hS p (by simp))
    simp only [transfer, hpos, k1]
    by_cases hps : ps = []
    · subst hps
      have c3 : p.hi = z1 := c3
      exact ⟨o1, rfl, by rw [← c3]; exact k2⟩
    · refine ih hps (hlo.trans c2) c3 (fun q hq => hS q (List.mem_cons_of_mem _ hq)) ?_ (by linarith) le_rfl (Or.inl k2)
      intro o y ya yb ho
      exact twist_mid t0 t1 (p0.trans c2) (p1.trans c2) le_rfl q0 q1 ya yb fun v va vb => by rw [le_antisymm vb va]; exact ho

end

end Verif.Geom
