import Verif.Merge.Props

/-!
# Counting across a line

If winding numbers are looked at through a function (such as "inside or not"), the changes of it across the segments to the left of a point add up to
the same total before and after merging, and along the contours.
-/

namespace Verif.Merge
open Verif.Topo Verif.Range Verif.Contours
set_option linter.unusedSectionVars false

variable {K : Type} [LinearOrder K] {W : Type} [AddCommGroup W] [DecidableEq W]
variable {single : Nat → Bool → W} {orient : Nat → Bool} {hist : List (K × OutputEvent K)} {t t' : Topo K W}
  {close : Nat → Nat → K → K → Bool}

/-- The change of `f` across the segment `i`, from its left to its right. -/
def change (t : Topo K W) (f : W → Int) (i : Nat) : Int := f (t.winding i).ccw - f (t.winding i).cw

open Classical in
/-- The sum of the changes across the segments with the property `P`. -/
noncomputable def total (n : Nat) (P : Nat → Prop) (d : Nat → Int) : Int := ((List.range n).map fun i => if P i then d i else 0).sum

theorem total_succ (n : Nat) (P : Nat → Prop) (d : Nat → Int) [Decidable (P n)] : total (n + 1) P d = total n P d + if P n then d n else 0 := by
  unfold total
  rw [List.range_succ, List.map_append, List.sum_append]
  simp

/-- Merging does not change the total over a set of segments that are not horizontal and that contains coincident segments together. -/
theorem merged_total (hsingle : ∀ s b, single s (!b) = - single s b) (hr : Run single orient hist [] t) (h : EndAdjacent close t)
    (hm : mergeCoincident close t = some t') (P : Nat → Prop) (hP : ∀ i < t.n, P i → ¬ Horiz t i)
    (hpair : ∀ c i, i < t.n → Coincident close t c i → (P c ↔ P i)) (f : W → Int) :
    total t.n (fun i => P i ∧ t'.deleted i = false) (change t' f) = total t.n P (change t f) := by
  classical
  obtain ⟨q1, q2, q3⟩ := C53_pairs hsingle hr h hm
  obtain ⟨g', hg'⟩ : ∃ g' : Nat → Int, g' = fun i => if P i ∧ t'.deleted i = false then change t' f i else 0 := ⟨_, rfl⟩
  obtain ⟨g, hg⟩ : ∃ g : Nat → Int, g = fun i => if P i then change t f i else 0 := ⟨_, rfl⟩
  have hsucc' : ∀ k, total (k + 1) (fun i => P i ∧ t'.deleted i = false) (change t' f) =
      total k (fun i => P i ∧ t'.deleted i = false) (change t' f) + g' k := fun k => by rw [total_succ, hg']
  have hsucc : ∀ k, total (k + 1) P (change t f) = total k P (change t f) + g k := fun k => by rw [total_succ, hg]
  have key : ∀ k ≤ t.n, total k (fun i => P i ∧ t'.deleted i = false) (change t' f) =
      total k P (change t f) + (if k < t.n ∧ Paired close t k then g' (k - 1) - g (k - 1) else 0) := by
    intro k
    induction k with
    | zero =>
      intro _
      rw [if_neg (fun hc => hc.2)]
      rfl
    | succ k ih =>
      intro hk
      have ih := ih (by omega)
      rw [hsucc', hsucc, ih]
      by_cases hp : Paired close t k
      · have hnp : ¬ Paired close t (k + 1) := fun hc => hc.2 hp
        rw [if_pos ⟨by omega, hp⟩, if_neg (fun hc => hnp hc.2)]
        obtain ⟨a1, a2, a3, a4⟩ := q2 k (by omega) hp
        cases k with
        | zero => exact absurd hp (fun hc => hc)
        | succ c =>
          simp only [Nat.add_sub_cancel] at a2 a3 a4 ⊢
          have hco : Coincident close t c (c + 1) := hp.1
          have hcP := hpair c (c + 1) (by omega) hco
          have e0 : g' (c + 1) = 0 := by
            rw [hg']
            exact if_neg fun hc => by rw [a1] at hc; exact absurd hc.2 (by simp)
          rw [e0]
          by_cases hPc : P c
          · have hmid : (t.winding (c + 1)).cw = (t.winding c).ccw := by
              have hc50 := (C50_scan_west single orient hsingle hist [] t hr (c + 1) (by omega)).2
              rcases hc50 with ⟨a, b, y, hrun⟩ | hc50
              · exact absurd ⟨_, _, hrun, rfl⟩ (hP (c + 1) (by omega) (hcP.1 hPc))
              · rw [hco.west] at hc50
                exact hc50
            have e1 : g' c = f (t.winding (c + 1)).ccw - f (t.winding c).cw := by
              rw [hg']
              simp only [change]
              by_cases hd : t'.deleted c = true
              · rw [if_neg (by rw [hd]; simp), a4.1 hd]; simp
              · rw [if_pos ⟨hPc, by simpa using hd⟩, a2, a3]
            have e2 : g c = f (t.winding c).ccw - f (t.winding c).cw := by rw [hg]; simp only [change]; rw [if_pos hPc]
            have e3 : g (c + 1) = f (t.winding (c + 1)).ccw - f (t.winding (c + 1)).cw := by
              rw [hg]; simp only [change]; rw [if_pos (hcP.1 hPc)]
            rw [e1, e2, e3, hmid]; omega
          · have e1 : g' c = 0 := by rw [hg']; exact if_neg fun hc => hPc hc.1
            have e2 : g c = 0 := by rw [hg]; exact if_neg hPc
            have e3 : g (c + 1) = 0 := by rw [hg]; exact if_neg fun hc => hPc (hcP.2 hc)
            rw [e1, e2, e3]; omega
      · rw [if_neg (fun hc => hp hc.2)]
        by_cases hp' : k + 1 < t.n ∧ Paired close t (k + 1)
        · rw [if_pos hp']
          simp only [Nat.add_sub_cancel]
          omega
        · rw [if_neg hp']
          have : g' k = g k := by
            rw [hg', hg]
            simp only [change]
            by_cases hPk : P k
            · obtain ⟨a1, a2⟩ := q3 k (by omega) (hP k (by omega) hPk) hp hp'
              rw [if_pos ⟨hPk, a1⟩, if_pos hPk, a2]
            · rw [if_neg fun hc => hPk hc.1, if_neg hPk]
          rw [this]; omega
  have := key t.n le_rfl
  rw [if_neg (fun hc => absurd hc.1 (lt_irrefl _)), add_zero] at this
  exact this

/-- Inside as a number. -/
def ind (inside : W → Bool) (w : W) : Int := if inside w then 1 else 0

open Classical in
/-- The number of segments of the contours with the property `P` that are traversed downwards, minus the number of those that are traversed upwards. (The
half-segment at the end of a segment stands for the segment traversed from its start to its end.) -/
noncomputable def signedCount (cs : List Contour) (P : Nat → Prop) : Int :=
  ((cs.flatMap Contour.path).map fun h => if P h.idx then (if h.first then -1 else 1) else 0).sum

/-- Along the contours the changes from outside to inside are counted. -/
theorem signedCount_eq {cs : List Contour} {inside : W → Bool} {n : Nat}
    (hperm : ((cs.flatMap Contour.path).map Half.idx).Perm
        ((List.range n).filter fun i => !t'.deleted i && (inside (t'.winding i).cw != inside (t'.winding i).ccw)))
    (hside : ∀ C ∈ cs, ∀ x ∈ C.path,
        if x.first = false then inside (t'.winding x.idx).ccw = true ∧ inside (t'.winding x.idx).cw = false
        else inside (t'.winding x.idx).cw = true ∧ inside (t'.winding x.idx).ccw = false) (P : Nat → Prop) :
    signedCount cs P = total n (fun i => P i ∧ t'.deleted i = false) (change t' (ind inside)) := by
  classical
  have e1 : signedCount cs P = (((cs.flatMap Contour.path).map Half.idx).map fun i => if P i then change t' (ind inside) i else 0).sum := by
    unfold signedCount
    rw [List.map_map]
    congr 1
    refine List.map_congr_left fun x hx => ?_
    obtain ⟨C, hC, hx⟩ := List.mem_flatMap.1 hx
    have hs := hside C hC x hx
    by_cases hPx : P x.idx
    · rw [if_pos hPx]
      simp only [Function.comp]
      rw [if_pos hPx]
      cases hf : x.first with
      | false =>
        rw [if_pos hf] at hs
        simp [change, ind, hs.1, hs.2]
      | true =>
        rw [if_neg (by rw [hf]; simp)] at hs
        simp [change, ind, hs.1, hs.2]
    · rw [if_neg hPx]
      simp only [Function.comp]
      rw [if_neg hPx]
  rw [e1, (hperm.map _).sum_eq]
  unfold total
  induction List.range n with
  | nil => rfl
  | cons i l ih =>
    by_cases hd : t'.deleted i = true
    · rw [List.filter_cons_of_neg (by simp [hd]), ih, List.map_cons, List.sum_cons, if_neg (fun hc => Bool.false_ne_true (hc.2.symm.trans hd)), zero_add]
    · have hd : t'.deleted i = false := by simpa using hd
      by_cases hb : inside (t'.winding i).cw = inside (t'.winding i).ccw
      · rw [List.filter_cons_of_neg (by simp [hd, hb]), ih, List.map_cons, List.sum_cons]
        have : change t' (ind inside) i = 0 := by simp [change, ind, hb]
        simp [this]
      · rw [List.filter_cons_of_pos (by simp [hd, hb]), List.map_cons, List.sum_cons, List.map_cons, List.sum_cons, ih]
        by_cases hPi : P i
        · rw [if_pos hPi, if_pos ⟨hPi, hd⟩]
        · rw [if_neg hPi, if_neg fun hc => hPi hc.1]

end Verif.Merge
