import Mathlib.Dynamics.PeriodicPts.Defs
import Mathlib.Data.Fintype.Pigeonhole
import Mathlib.Data.Finset.Prod
import Verif.Contours.Spec

/-! Walking around a point and along a contour: both are orbits of injective maps. -/

namespace Verif.Contours
open Verif.Topo

/-- Orbits of a map that is injective on an invariant set of at most `N` elements. -/
theorem exists_orbit {α : Type} [DecidableEq α] (f : α → α) (P : α → Prop) (S : Finset α) (hS : ∀ a, P a → a ∈ S)
    (hP : ∀ a, P a → P (f a)) (hinj : ∀ a b, P a → P b → f a = f b → a = b) (a : α) (ha : P a) :
    ∃ m, 1 ≤ m ∧ m ≤ S.card ∧ f^[m] a = a ∧ ∀ i j, i < j → j < m → f^[i] a ≠ f^[j] a := by
  have hPi : ∀ i, P (f^[i] a) := by
    intro i
    induction i with
    | zero => exact ha
    | succ i ih => rw [Function.iterate_succ_apply']; exact hP _ ih
  have back : ∀ i d, f^[i] a = f^[i + d] a → a = f^[d] a := by
    intro i
    induction i with
    | zero => intro d h; simpa using h
    | succ i ih =>
      intro d h
      apply ih
      have : i + 1 + d = (i + d) + 1 := by omega
      rw [this, Function.iterate_succ_apply', Function.iterate_succ_apply'] at h
      exact hinj _ _ (hPi _) (hPi _) h
  have hex : ∃ m, 1 ≤ m ∧ m ≤ S.card ∧ f^[m] a = a := by
    obtain ⟨i, hi, j, hj, hne, he⟩ := Finset.exists_ne_map_eq_of_card_lt_of_maps_to
      (s := Finset.range (S.card + 1)) (t := S) (f := fun i => f^[i] a) (by simp) (by
        intro i _; exact hS _ (hPi i))
    rw [Finset.mem_range] at hi hj
    rcases Nat.lt_or_gt_of_ne hne with h | h
    · refine ⟨j - i, by omega, by omega, (back i (j - i) ?_).symm⟩
      have : i + (j - i) = j := by omega
      rw [this]; exact he
    · refine ⟨i - j, by omega, by omega, (back j (i - j) ?_).symm⟩
      have : j + (i - j) = i := by omega
      rw [this]; exact he.symm
  classical
  have hmin := Nat.find_spec hex
  refine ⟨Nat.find hex, hmin.1, hmin.2.1, hmin.2.2, ?_⟩
  intro i j hij hj he
  have : i + (j - i) = j := by omega
  have h1 := back i (j - i) (by rw [this]; exact he)
  exact Nat.find_min hex (m := j - i) (by omega) ⟨by omega, by omega, h1.symm⟩

variable {K : Type} {W : Type}

/-- All half-segments. -/
def halves (n : Nat) : Finset Half :=
  (Finset.range n ×ˢ (Finset.univ : Finset Bool)).image fun p => ⟨p.1, p.2⟩

theorem card_halves (n : Nat) : (halves n).card ≤ 2 * n := by
  unfold halves
  refine Finset.card_image_le.trans ?_
  rw [Finset.card_product]
  simp; omega

theorem mem_halves {t : Topo K W} {h : Half} (hl : Live t h) : h ∈ halves t.n := by
  unfold halves
  rw [Finset.mem_image]
  exact ⟨(h.idx, h.first), by simp [hl.1], rfl⟩

/-- The clockwise neighbour. -/
def cwN (t : Topo K W) (h : Half) : Half := (t.nb h).cw

/-- The first boundary segment met when going clockwise from `e`. -/
structure NextIs (t : Topo K W) (inside : W → Bool) (e r : Half) (k : Nat) : Prop where
  eq : r = (cwN t)^[k + 1] e
  skip : ∀ j < k, inside (t.windingCw ((cwN t)^[j + 1] e)) = true
  stop : inside (t.windingCw r) = false

theorem nextBdy_run (t : Topo K W) (inside : W → Bool) (k : Nat) : ∀ e f, k < f →
    (∀ j < k, inside (t.windingCw ((cwN t)^[j] e)) = true) → inside (t.windingCw ((cwN t)^[k] e)) = false →
    nextBdy t inside f e = some ((cwN t)^[k] e) := by
  induction k with
  | zero =>
    intro e f hf _ h2
    cases f with
    | zero => omega
    | succ f => unfold nextBdy; simp only [Function.iterate_zero, id] at h2 ⊢; simp [h2]
  | succ k ih =>
    intro e f hf h1 h2
    cases f with
    | zero => omega
    | succ f =>
      unfold nextBdy
      have h0 := h1 0 (by omega)
      simp only [Function.iterate_zero, id] at h0
      rw [if_pos h0]
      rw [Function.iterate_succ_apply] at h2 ⊢
      exact ih _ f (by omega) (fun j hj => by have := h1 (j + 1) (by omega); rwa [Function.iterate_succ_apply] at this) h2

section
variable {t : Topo K W} {inside : W → Bool}

theorem Consistent.iter_live (hc : Consistent t) {h : Half} (hl : Live t h) (k : Nat) :
    Live t ((cwN t)^[k] h) ∧ t.pointIdx ((cwN t)^[k] h) = t.pointIdx h := by
  induction k with
  | zero => exact ⟨hl, rfl⟩
  | succ k ih =>
    rw [Function.iterate_succ_apply']
    obtain ⟨h1, _, h3⟩ := hc.cw _ ih.1
    exact ⟨h1, h3.trans ih.2⟩

theorem Consistent.cw_inj (hc : Consistent t) (a b : Half) (ha : Live t a) (hb : Live t b) (h : cwN t a = cwN t b) : a = b := by
  have h1 := (hc.cw a ha).2.1
  have h2 := (hc.cw b hb).2.1
  unfold cwN at h
  rw [h] at h1
  exact h1.symm.trans h2

/-- Going clockwise from the end of a boundary segment one meets a boundary segment before coming back. -/
theorem Consistent.next (hc : Consistent t) {e : Half} (he : IsEnd t inside e) :
    ∃ r k, NextIs t inside e r k ∧ k < 2 * t.n := by
  obtain ⟨m, hm1, hm2, hm3, _⟩ := exists_orbit (cwN t) (Live t) (halves t.n) (fun _ => mem_halves)
    (fun a ha => (hc.cw a ha).1) hc.cw_inj e he.1
  have hcard := card_halves t.n
  have hm : 2 ≤ m := by
    by_contra hlt
    have : m = 1 := by omega
    subst this
    have h1 := hc.fit e he.1
    have h2 : (t.nb e).cw = e := hm3
    rw [h2] at h1
    have h3 := he.2.1
    rw [h1, he.2.2] at h3
    simp at h3
  have hex : ∃ k, k < m - 1 ∧ inside (t.windingCw ((cwN t)^[k + 1] e)) = false := by
    refine ⟨m - 2, by omega, ?_⟩
    have h1 := hc.fit _ (hc.iter_live he.1 (m - 2 + 1)).1
    have h2 : cwN t ((cwN t)^[m - 2 + 1] e) = e := by
      rw [← Function.iterate_succ_apply' (cwN t)]
      have : (m - 2 + 1).succ = m := by omega
      rw [this]; exact hm3
    have h2 : (t.nb ((cwN t)^[m - 2 + 1] e)).cw = e := h2
    rw [h1, h2]
    exact he.2.2
  classical
  have hs := Nat.find_spec hex
  refine ⟨_, Nat.find hex, ⟨rfl, ?_, hs.2⟩, by omega⟩
  intro j hj
  have := Nat.find_min hex hj
  simp only [not_and] at this
  have := this (by omega)
  simpa using this

theorem NextIs.run {e r : Half} {k : Nat} (h : NextIs t inside e r k) (f : Nat) (hf : k < f) :
    nextBdy t inside f (t.nb e).cw = some r := by
  have := nextBdy_run t inside k (cwN t e) f hf (fun j hj => by
      have := h.skip j hj; rwa [Function.iterate_succ_apply] at this) (by
      have := h.stop; rw [h.eq, Function.iterate_succ_apply] at this; exact this)
  rw [h.eq, Function.iterate_succ_apply]; exact this

theorem windingCw_other (h : Half) : t.windingCw h.other = t.windingCcw h := by
  unfold Topo.windingCw Topo.windingCcw Half.other
  cases h.first <;> simp

theorem windingCcw_other (h : Half) : t.windingCcw h.other = t.windingCw h := by
  unfold Topo.windingCw Topo.windingCcw Half.other
  cases h.first <;> simp

theorem other_other (h : Half) : h.other.other = h := by
  unfold Half.other; simp

theorem NextIs.isEnd (hc : Consistent t) {e r : Half} {k : Nat} (he : IsEnd t inside e) (h : NextIs t inside e r k) :
    IsEnd t inside r.other ∧ t.pointIdx r = t.pointIdx e := by
  have hl := hc.iter_live he.1 (k + 1)
  rw [← h.eq] at hl
  refine ⟨⟨hl.1, ?_, ?_⟩, hl.2⟩
  · rw [windingCw_other]
    have hf := hc.fit _ (hc.iter_live he.1 k).1
    have : (t.nb ((cwN t)^[k] e)).cw = r := by rw [h.eq, Function.iterate_succ_apply']; rfl
    rw [this] at hf
    rw [← hf]
    cases k with
    | zero => exact he.2.1
    | succ k => exact h.skip k (by omega)
  · rw [windingCcw_other]; exact h.stop

theorem iter_inj (hc : Consistent t) {a b : Half} (ha : Live t a) (hb : Live t b) (k : Nat)
    (h : (cwN t)^[k] a = (cwN t)^[k] b) : a = b := by
  induction k with
  | zero => exact h
  | succ k ih =>
    rw [Function.iterate_succ_apply', Function.iterate_succ_apply'] at h
    exact ih (hc.cw_inj _ _ (hc.iter_live ha k).1 (hc.iter_live hb k).1 h)

theorem NextIs.inj (hc : Consistent t) {e e' r : Half} {k k' : Nat} (he : IsEnd t inside e) (he' : IsEnd t inside e')
    (h : NextIs t inside e r k) (h' : NextIs t inside e' r k') : e = e' := by
  have key : ∀ {a b : Half} {i d : Nat}, IsEnd t inside a → IsEnd t inside b → NextIs t inside a r i →
      NextIs t inside b r (i + d) → d = 0 := by
    intro a b i d ha hb h1 h2
    by_contra hd
    have e1 : (cwN t)^[i + 1] a = (cwN t)^[i + 1] ((cwN t)^[d] b) := by
      rw [← h1.eq, h2.eq, ← Function.iterate_add_apply]; congr 1; omega
    have e2 := iter_inj hc ha.1 (hc.iter_live hb.1 d).1 _ e1
    obtain ⟨d', rfl⟩ : ∃ d', d = d' + 1 := ⟨d - 1, by omega⟩
    have hf := hc.fit _ (hc.iter_live hb.1 d').1
    have : (t.nb ((cwN t)^[d'] b)).cw = a := by rw [e2, Function.iterate_succ_apply']; rfl
    rw [this] at hf
    have h3 := ha.2.2
    rw [← hf] at h3
    cases d' with
    | zero =>
      simp only [Function.iterate_zero, id] at h3
      rw [hb.2.1] at h3; simp at h3
    | succ d'' =>
      have := h2.skip d'' (by omega)
      rw [h3] at this; simp at this
  rcases Nat.le_total k k' with hk | hk
  · obtain ⟨d, rfl⟩ := Nat.exists_eq_add_of_le hk
    have := key he he' h h'
    subst this
    apply iter_inj hc he.1 he'.1 (k + 1)
    rw [← h.eq, h'.eq]; try rfl
  · obtain ⟨d, rfl⟩ := Nat.exists_eq_add_of_le hk
    have := key he' he h' h
    subst this
    apply iter_inj hc he.1 he'.1 (k' + 1)
    rw [← h'.eq, h.eq]; try rfl

/-- The end of the next segment of the contour. -/
def nextEnd (t : Topo K W) (inside : W → Bool) (e : Half) : Half :=
  ((nextBdy t inside (2 * t.n) (t.nb e).cw).getD e).other

theorem nextEnd_spec (hc : Consistent t) {e : Half} (he : IsEnd t inside e) :
    (∀ f, 2 * t.n ≤ f → nextBdy t inside f (t.nb e).cw = some (nextEnd t inside e).other) ∧
    IsEnd t inside (nextEnd t inside e) ∧ t.pointIdx (nextEnd t inside e).other = t.pointIdx e := by
  obtain ⟨r, k, h1, h2⟩ := hc.next he
  have : nextEnd t inside e = r.other := by unfold nextEnd; rw [h1.run _ h2]; rfl
  rw [this, other_other]
  exact ⟨fun f hf => h1.run f (by omega), (h1.isEnd hc he).1, (h1.isEnd hc he).2⟩

theorem nextEnd_inj (hc : Consistent t) {a b : Half} (ha : IsEnd t inside a) (hb : IsEnd t inside b)
    (h : nextEnd t inside a = nextEnd t inside b) : a = b := by
  obtain ⟨r, k, h1, h2⟩ := hc.next ha
  obtain ⟨r', k', h1', h2'⟩ := hc.next hb
  have e1 : nextEnd t inside a = r.other := by unfold nextEnd; rw [h1.run _ h2]; rfl
  have e2 : nextEnd t inside b = r'.other := by unfold nextEnd; rw [h1'.run _ h2']; rfl
  rw [e1, e2] at h
  have : r = r' := by rw [← other_other r, h, other_other]
  subst this
  exact NextIs.inj hc ha hb h1 h1'

/-- The ends met on the walk along a contour. -/
theorem walk_orbit (hc : Consistent t) {e : Half} (he : IsEnd t inside e) :
    ∃ m, 1 ≤ m ∧ m ≤ 2 * t.n ∧ (nextEnd t inside)^[m] e = e ∧
      ∀ i j, i < j → j < m → (nextEnd t inside)^[i] e ≠ (nextEnd t inside)^[j] e := by
  obtain ⟨m, h1, h2, h3⟩ := exists_orbit (nextEnd t inside) (IsEnd t inside) (halves t.n) (fun _ h => mem_halves h.1)
    (fun a ha => (nextEnd_spec hc ha).2.1) (fun a b ha hb => nextEnd_inj hc ha hb) e he
  have := card_halves t.n
  exact ⟨m, h1, by omega, h3⟩

theorem isEnd_unique {h h' : Half} (a : IsEnd t inside h) (b : IsEnd t inside h') (e : h.idx = h'.idx) : h = h' := by
  obtain ⟨i, f⟩ := h
  obtain ⟨j, g⟩ := h'
  simp only at e; subst e
  obtain ⟨_, a1, a2⟩ := a
  obtain ⟨_, b1, b2⟩ := b
  cases f <;> cases g <;> simp [Topo.windingCw, Topo.windingCcw] at * <;> simp_all

theorem isEnd_bdy {h : Half} (a : IsEnd t inside h) : bdy t inside h.idx = true := by
  obtain ⟨i, f⟩ := h
  obtain ⟨_, a1, a2⟩ := a
  cases f <;> simp_all [Topo.windingCw, Topo.windingCcw, bdy]

theorem bdy_isEnd {i : Nat} (hi : i < t.n) (hd : t.deleted i = false) (hb : bdy t inside i = true) :
    IsEnd t inside (if inside (t.winding i).ccw then ⟨i, false⟩ else ⟨i, true⟩) := by
  unfold bdy at hb
  cases h : inside (t.winding i).ccw <;> rw [h] at hb <;>
    simp_all [IsEnd, Live, Topo.windingCw, Topo.windingCcw]
end

end Verif.Contours
