import Mathlib.Algebra.Group.Int.Defs
import Verif.Contours.Main
import Verif.Contours.Group
import Verif.Topo.Props

/-!
# Properties of `Topology::contours` (C27-C29, C51, C52) and `Contours::grouped` (C30)
-/

namespace Verif.Contours
open Verif.Topo

variable {K : Type} {W : Type}

/-! ## The budget does not matter -/

theorem nextBdy_mono (t : Topo K W) (inside : W → Bool) (f : Nat) : ∀ h r g, f ≤ g → nextBdy t inside f h = some r →
    nextBdy t inside g h = some r := by
  induction f with
  | zero => intro h r g _ hr; simp [nextBdy] at hr
  | succ f ih =>
    intro h r g hg hr
    obtain ⟨g, rfl⟩ : ∃ g', g = g' + 1 := ⟨g - 1, by omega⟩
    unfold nextBdy at hr ⊢
    split at hr
    · rename_i hi; rw [if_pos hi]; exact ih _ _ g (by omega) hr
    · rename_i hi; rw [if_neg hi]; exact hr

theorem scanBdy_mono (t : Topo K W) (inside : W → Bool) (f : Nat) : ∀ o r g, f ≤ g → scanBdy t inside f o = some r →
    scanBdy t inside g o = some r := by
  induction f with
  | zero => intro h r g _ hr; simp [scanBdy] at hr
  | succ f ih =>
    intro o r g hg hr
    obtain ⟨g, rfl⟩ : ∃ g', g = g' + 1 := ⟨g - 1, by omega⟩
    cases o with
    | none => exact hr
    | some j =>
      unfold scanBdy at hr ⊢
      split at hr
      · rename_i hi; rw [if_pos hi]; exact ih _ _ g (by omega) hr
      · rename_i hi; rw [if_neg hi]; exact hr

theorem newContour_mono (t : Topo K W) (inside : W → Bool) (f g : Nat) (hg : f ≤ g) (st : CState) (i : Nat) (r : Contour)
    (hr : newContour t inside f st i = some r) : newContour t inside g st i = some r := by
  unfold newContour at hr ⊢
  cases h : scanBdy t inside f (t.scanWest i) with
  | none => rw [h] at hr; simp at hr
  | some w => rw [scanBdy_mono t inside f _ _ g hg h]; rw [h] at hr; exact hr

theorem walk_mono (t : Topo K W) (inside : W → Bool) (F G : Nat) (hG : F ≤ G) (c : Nat) (start : Half) (f : Nat) :
    ∀ next segs st r g, f ≤ g → walk t inside F c start f next segs st = some r →
    walk t inside G c start g next segs st = some r := by
  induction f with
  | zero => intro next segs st r g _ hr; simp [walk] at hr
  | succ f ih =>
    intro next segs st r g hg hr
    obtain ⟨g, rfl⟩ : ∃ g', g = g' + 1 := ⟨g - 1, by omega⟩
    unfold walk at hr ⊢
    simp only at hr ⊢
    split at hr
    · simp at hr
    · rename_i hi
      rw [if_neg hi]
      cases h : nextBdy t inside F (t.nb next).cw with
      | none => rw [h] at hr; simp at hr
      | some nbr =>
        rw [nextBdy_mono t inside F _ _ G hG h]
        rw [h] at hr
        simp only at hr ⊢
        split at hr
        · rename_i hi; rw [if_pos hi]; exact hr
        · rename_i hi
          rw [if_neg hi]
          cases hp : t.pointIdx nbr with
          | none => rw [hp] at hr; simp at hr
          | some p =>
            rw [hp] at hr
            simp only at hr ⊢
            split at hr
            · rename_i k hk
              cases hC : st.contours[c]? with
              | none => rw [hC] at hr; simp at hr
              | some C =>
                rw [hC] at hr
                exact ih _ _ _ _ g (by omega) hr
            · rename_i hk
              exact ih _ _ _ _ g (by omega) hr

theorem contourAt_mono (t : Topo K W) (inside : W → Bool) (F G : Nat) (hG : F ≤ G) (st : CState) (i : Nat) (r : CState)
    (hr : contourAt t inside F st i = some r) : contourAt t inside G st i = some r := by
  unfold contourAt at hr ⊢
  split at hr
  · rename_i h; rw [if_pos h]; exact hr
  rename_i h; rw [if_neg h]
  split at hr
  · rename_i h; rw [if_pos h]; exact hr
  rename_i h; rw [if_neg h]
  simp only at hr ⊢
  cases hC : newContour t inside F st i with
  | none => rw [hC] at hr; simp at hr
  | some C =>
    rw [newContour_mono t inside F G hG st i C hC]
    rw [hC] at hr
    simp only at hr ⊢
    generalize (if inside (t.winding i).ccw then (⟨i, true⟩ : Half) else ⟨i, false⟩) = start at hr ⊢
    split at hr
    · simp at hr
    · rename_i p hp
      split at hr
      · simp at hr
      · rename_i hi
        rw [if_neg hi]
        split at hr
        · simp at hr
        · rename_i segs st' hw
          rw [walk_mono t inside F G hG _ _ F _ _ _ _ G hG hw]
          exact hr

theorem contoursLoop_mono (t : Topo K W) (inside : W → Bool) (F G : Nat) (hG : F ≤ G) (l : List Nat) : ∀ st r,
    contoursLoop t inside F l st = some r → contoursLoop t inside G l st = some r := by
  induction l with
  | nil => intro st r hr; exact hr
  | cons i l ih =>
    intro st r hr
    unfold contoursLoop at hr ⊢
    cases h : contourAt t inside F st i with
    | none => rw [h] at hr; simp at hr
    | some s => rw [contourAt_mono t inside F G hG st i s h]; rw [h] at hr; exact ih s r hr

theorem contours_mono (t : Topo K W) (inside : W → Bool) (F G : Nat) (hG : F ≤ G) (cs : List Contour)
    (h : contours t inside F = some cs) : contours t inside G = some cs := by
  unfold contours at h ⊢
  rw [Option.map_eq_some_iff] at h
  obtain ⟨st, h1, h2⟩ := h
  rw [contoursLoop_mono t inside F G hG _ _ _ h1]
  exact congrArg some h2

/-- The result of `contours`, for any budget, satisfies the invariant. -/
theorem contours_inv {t : Topo K W} {inside : W → Bool} (hc : Consistent t) {fuel : Nat} {cs : List Contour}
    (h : contours t inside fuel = some cs) : ∃ st : CState, st.contours = cs ∧ CInv t inside t.n st := by
  obtain ⟨st, h1, h2⟩ := contours_spec (inside := inside) hc (max fuel (2 * t.n + 1)) (by omega)
  rw [contours_mono t inside fuel _ (by omega) cs h] at h1
  exact ⟨st, by simpa using h1.symm, h2⟩

/-! ## C27 -/

/-- C27: `contours` terminates without panicking: more than `2n` iterations are never needed in any of its loops, and
the result does not depend on the budget. -/
theorem C27_terminates (t : Topo K W) (inside : W → Bool) (hc : Consistent t) :
    ∃ cs, ∀ fuel, 2 * t.n < fuel → contours t inside fuel = some cs := by
  obtain ⟨st, h1, _⟩ := contours_spec (inside := inside) hc (2 * t.n + 1) (by omega)
  exact ⟨st.contours, fun fuel hf => contours_mono t inside _ fuel (by omega) _ h1⟩

/-- C27: the segments on the returned contours are exactly the output segments that have the set on exactly one side,
each of them once. -/
theorem C27_partition (t : Topo K W) (inside : W → Bool) (hc : Consistent t) (fuel : Nat) (cs : List Contour)
    (h : contours t inside fuel = some cs) :
    ((cs.flatMap Contour.path).map Half.idx).Perm
      ((List.range t.n).filter fun i => !t.deleted i && (inside (t.winding i).cw != inside (t.winding i).ccw)) := by
  obtain ⟨st, rfl, inv⟩ := contours_inv hc h
  rw [List.perm_ext_iff_of_nodup]
  · intro i
    rw [List.mem_map, List.mem_filter, List.mem_range, Bool.and_eq_true]
    constructor
    · rintro ⟨x, hx, rfl⟩
      have he := inv.ends x hx
      exact ⟨he.1.1, by rw [he.1.2]; rfl, isEnd_bdy he⟩
    · rintro ⟨h1, h2, h3⟩
      have := inv.done i h1 h1 (by simpa using h2) h3
      exact (inv.vis i).1 this
  · apply List.Nodup.map_on _ inv.nodup
    intro a ha b hb hab
    exact isEnd_unique (inv.ends a ha) (inv.ends b hb) hab
  · exact List.nodup_range.filter _

/-! ## C28 -/

/-- C28: every contour is closed and visits no point twice. -/
theorem C28_closed_simple (t : Topo K W) (inside : W → Bool) (hc : Consistent t) (fuel : Nat) (cs : List Contour)
    (h : contours t inside fuel = some cs) (C : Contour) (hC : C ∈ cs) : Closed t C.path ∧ Simple t C.path := by
  obtain ⟨st, rfl, inv⟩ := contours_inv hc h
  obtain ⟨h1, h2⟩ := inv.good C hC
  exact ⟨h1, (ends_perm_starts C.path h1).nodup_iff.2 h2⟩

/-! ## C29 -/

/-- C29: a contour without parent is outer; the parent of a contour comes earlier and has the opposite flag. -/
theorem C29_forest (t : Topo K W) (inside : W → Bool) (hc : Consistent t) (fuel : Nat) (cs : List Contour)
    (h : contours t inside fuel = some cs) (c : Nat) (C : Contour) (hC : cs[c]? = some C) :
    (C.parent = none → C.outer = true) ∧
    ∀ p, C.parent = some p → p < c ∧ ∃ P, cs[p]? = some P ∧ C.outer = !P.outer := by
  obtain ⟨st, rfl, inv⟩ := contours_inv hc h
  exact ⟨inv.top c C hC, fun p => inv.tree c C p hC⟩

/-! ## C51 -/

/-- C51: walking along a contour, the set is on the left and its complement on the right. A segment walked in its own
(downwards or rightwards) direction is recorded by its second half and has its counter-clockwise side on the left. -/
theorem C51_left (t : Topo K W) (inside : W → Bool) (hc : Consistent t) (fuel : Nat) (cs : List Contour)
    (h : contours t inside fuel = some cs) (C : Contour) (hC : C ∈ cs) (x : Half) (hx : x ∈ C.path) :
    if x.first = false then inside (t.winding x.idx).ccw = true ∧ inside (t.winding x.idx).cw = false
    else inside (t.winding x.idx).cw = true ∧ inside (t.winding x.idx).ccw = false := by
  obtain ⟨st, rfl, inv⟩ := contours_inv hc h
  have he := inv.ends x (List.mem_flatMap.2 ⟨C, hC, hx⟩)
  obtain ⟨_, h1, h2⟩ := he
  unfold Topo.windingCw at h1
  unfold Topo.windingCcw at h2
  cases hf : x.first <;> rw [hf] at h1 h2 <;> simp_all

/-! ## C52 -/

theorem liveWest_exists {t : Topo K W} (hc : Consistent t) (b : Nat) : ∀ o, b ≤ t.n → (∀ j, o = some j → j < b) →
    ∃ r, LiveWest t o r := by
  induction b using Nat.strong_induction_on with
  | _ b ih =>
    intro o hb ho
    cases o with
    | none => exact ⟨none, .none⟩
    | some j =>
      have hj := ho j rfl
      cases hd : t.deleted j with
      | false => exact ⟨some j, .live j hd⟩
      | true =>
        obtain ⟨r, hr⟩ := ih j hj (t.scanWest j) (by omega) (hc.west j (by omega))
        exact ⟨r, .skip j r hd hr⟩

theorem bdyWest_inside [AddCommGroup W] {t : Topo K W} {inside : W → Bool} (hc : Consistent t)
    (hw : ∀ i < t.n, t.deleted i = false → ∀ r, LiveWest t (t.scanWest i) r → (t.winding i).cw = eastOf t r) {o w : Option Nat}
    (h : BdyWest t inside o w) : (∀ j, o = some j → j < t.n) → ∀ r, LiveWest t o r → inside (eastOf t r) = inside (eastOf t w) := by
  induction h with
  | none => intro _ r hr; cases hr; rfl
  | live j hd hb =>
    intro _ r hr
    cases hr with
    | live => rfl
    | skip _ _ h => rw [hd] at h; simp at h
  | skip j w hs _ ih =>
    intro ho r hr
    have hj := ho j rfl
    have hlt : ∀ i, t.scanWest j = some i → i < t.n := fun i hi => by have := hc.west j hj i hi; omega
    cases hr with
    | skip _ _ hd hr => exact ih hlt r hr
    | live _ hd =>
      have hs' : inside (t.winding j).cw = inside (t.winding j).ccw := by
        rcases hs with h | h
        · rw [hd] at h; simp at h
        · exact h
      obtain ⟨r', hr'⟩ := liveWest_exists hc t.n (t.scanWest j) (le_refl _) hlt
      have := ih hlt r' hr'
      rw [← hw j hj hd r' hr'] at this
      rw [← this]
      exact hs'.symm

/-- The contour visits a point that another contour visits, too. -/
def SharesPoint (t : Topo K W) (cs : List Contour) (c : Nat) (C : Contour) : Prop :=
  ∃ (c' : Nat) (C' : Contour), c' ≠ c ∧ cs[c']? = some C' ∧ ∃ h ∈ C.path, ∃ h' ∈ C'.path, t.pointIdx h = t.pointIdx h'

/-- C52, partially: if a contour shares no point with another contour, then its flag and parent are the ones determined
by what is to the left of its first segment `x` (in sweep order): it is outer iff that place does not belong to the set; if
there is no boundary segment to the left it has no parent, otherwise it is a child or a sibling of the contour through the
nearest boundary segment `j` to the left, depending on whether the flags differ.
Missing: contours sharing points; `C52_touching` shows that the statement fails for them. -/
theorem C52_label_partial [AddCommGroup W] (t : Topo K W) (inside : W → Bool) (hc : Consistent t)
    (hw : ∀ i < t.n, t.deleted i = false → ∀ r, LiveWest t (t.scanWest i) r → (t.winding i).cw = eastOf t r)
    (h0 : inside 0 = false) (fuel : Nat) (cs : List Contour)
    (h : contours t inside fuel = some cs) (c : Nat) (C : Contour) (hC : cs[c]? = some C)
    (hns : ¬ SharesPoint t cs c C) :
    ∃ x ∈ C.path, (∀ x' ∈ C.path, x.idx ≤ x'.idx) ∧
      C.outer = !inside (t.winding x.idx).cw ∧
      ∃ w, BdyWest t inside (t.scanWest x.idx) w ∧
        (w = none → C.parent = none) ∧
        ∀ j, w = some j → ∃ (d : Nat) (D : Contour) (y : Half), cs[d]? = some D ∧ y ∈ D.path ∧ y.idx = j ∧
          C.parent = if C.outer = D.outer then D.parent else some d := by
  obtain ⟨st, rfl, inv⟩ := contours_inv hc h
  rcases inv.label c C hC with ⟨c', C', t1, t2, x, hx, y, hy, hxy⟩ | ⟨x, hx, hmin, w, r1, r2, r3⟩
  · exfalso
    apply hns
    have m1 : t.pointIdx x.other ∈ C.path.map t.pointIdx := by
      rw [(ends_perm_starts C.path (inv.good C (List.mem_of_getElem? hC)).1).mem_iff]
      exact List.mem_map.2 ⟨x, hx, rfl⟩
    have m2 : t.pointIdx y.other ∈ C'.path.map t.pointIdx := by
      rw [(ends_perm_starts C'.path (inv.good C' (List.mem_of_getElem? t2)).1).mem_iff]
      exact List.mem_map.2 ⟨y, hy, rfl⟩
    obtain ⟨x', hx', ex⟩ := List.mem_map.1 m1
    obtain ⟨y', hy', ey⟩ := List.mem_map.1 m2
    exact ⟨c', C', t1, t2, x', hx', y', hy', by rw [ex, ey, hxy]⟩
  · refine ⟨x, hx, hmin, ?_, w, r1, fun hwn => (r2 hwn).1, ?_⟩
    · have hend := inv.ends x (List.mem_flatMap.2 ⟨C, List.mem_of_getElem? hC, hx⟩)
      have hlt : ∀ i, t.scanWest x.idx = some i → i < t.n := fun i hi => by
        have := hc.west _ hend.1.1 i hi; have := hend.1.1; omega
      obtain ⟨r, hr⟩ := liveWest_exists hc t.n (t.scanWest x.idx) (le_refl _) hlt
      rw [hw _ hend.1.1 hend.1.2 r hr, bdyWest_inside hc hw r1 hlt r hr]
      cases w with
      | none => rw [(r2 rfl).2]; show true = !inside 0; rw [h0]; rfl
      | some j =>
        obtain ⟨_, _, _, _, _, _, ho, _⟩ := r3 j rfl
        exact ho
    · intro j hj
      obtain ⟨d, D, y, s1, s2, s3, _, s5⟩ := r3 j hj
      exact ⟨d, D, y, s1, s2, s3, s5⟩

/-! ## C30 -/

/-- C30: `grouped` puts every contour into exactly one group. Each group starts with a contour without parent and
consists of the contours below it. -/
theorem C30_grouped (cs : List Contour)
    (hf : ∀ (i : Nat) (C : Contour) (p : Nat), cs[i]? = some C → C.parent = some p → p < i) (fuel : Nat) (hfuel : cs.length ≤ fuel) :
    ∃ gs, grouped cs fuel = some gs ∧ gs.flatten.Perm (List.range cs.length) ∧
      ∀ g ∈ gs, ∃ r R, g.head? = some r ∧ cs[r]? = some R ∧ R.parent = none ∧ ∀ j, j ∈ g ↔ Under cs r j := by
  have hF : Forest cs := by
    intro i p h
    unfold par at h
    cases hi : cs[i]? with
    | none => rw [hi] at h; simp at h
    | some C => rw [hi] at h; exact hf i C p hi h
  obtain ⟨ch, h1, h2⟩ := groupLoop_spec cs hF cs.length 0 (fun _ => []) [] (by omega) (by simp) (by simp)
  have hr : ∀ i ∈ roots cs, i < cs.length := by
    intro i hi
    unfold roots at hi
    rw [List.mem_filter, List.mem_range] at hi
    exact hi.1
  have hroot : ∀ i ∈ roots cs, par cs i = none := by
    intro i hi
    unfold roots at hi
    rw [List.mem_filter, decide_eq_true_eq] at hi
    exact hi.2
  obtain ⟨gs, g1, g2, g3⟩ := groupTop_spec cs hF ch h2 fuel hfuel (roots cs) hr
  have hnd : (roots cs).Nodup := List.nodup_range.filter _
  have flat : ∀ (is : List Nat) (gs : List (List Nat)),
      List.Forall₂ (fun i g => g.Nodup ∧ ∀ j, j ∈ g ↔ Under cs i j) is gs → is.Nodup → (∀ i ∈ is, par cs i = none) →
      gs.flatten.Nodup ∧ ∀ j, j ∈ gs.flatten ↔ ∃ i ∈ is, Under cs i j := by
    intro is gs hfa
    induction hfa with
    | nil => intro _ _; simp
    | @cons i g is gs hg _ ih =>
      intro hn hp
      rw [List.nodup_cons] at hn
      obtain ⟨a1, a2⟩ := ih hn.2 (fun x hx => hp x (List.mem_cons_of_mem _ hx))
      rw [List.flatten_cons]
      refine ⟨?_, ?_⟩
      · rw [List.nodup_append]
        refine ⟨hg.1, a1, ?_⟩
        intro x hx y hy hxy
        subst hxy
        rw [hg.2] at hx
        rw [a2] at hy
        obtain ⟨i', hi', hu⟩ := hy
        have := root_unique (hp i (by simp)) (hp i' (List.mem_cons_of_mem _ hi')) hx hu
        subst this
        exact hn.1 hi'
      · intro j
        rw [List.mem_append, hg.2, a2]
        simp
  obtain ⟨f1, f2⟩ := flat _ _ g3 hnd hroot
  refine ⟨gs, ?_, ?_, ?_⟩
  · unfold grouped
    rw [List.range_eq_range', h1]
    exact g1
  · rw [List.perm_ext_iff_of_nodup f1 List.nodup_range]
    intro j
    rw [f2, List.mem_range]
    constructor
    · rintro ⟨i, hi, hu⟩; exact hu.lt (hr i hi)
    · intro hj
      obtain ⟨r, hr1, hr2⟩ := exists_root cs hF j
      refine ⟨r, ?_, hr2⟩
      unfold roots
      rw [List.mem_filter, List.mem_range, decide_eq_true_eq]
      have := hr2.le hF
      exact ⟨by omega, hr1⟩
  · intro g hg
    have : ∀ (is : List Nat) (gs : List (List Nat)), List.Forall₂ (fun i g => g.Nodup ∧ ∀ j, j ∈ g ↔ Under cs i j) is gs →
        gs.map List.head? = is.map some → g ∈ gs → ∃ r ∈ is, g.head? = some r ∧ ∀ j, j ∈ g ↔ Under cs r j := by
      intro is gs hfa
      induction hfa with
      | nil => intro _ h; simp at h
      | @cons i g' is gs hg' _ ih =>
        intro hm hmem
        simp only [List.map_cons, List.cons.injEq] at hm
        rcases List.mem_cons.1 hmem with h | h
        · subst h
          exact ⟨i, by simp, hm.1, hg'.2⟩
        · obtain ⟨r, hr, q⟩ := ih hm.2 h
          exact ⟨r, List.mem_cons_of_mem _ hr, q⟩
    obtain ⟨r, hr1, hr2, hr3⟩ := this _ _ g3 g2 hg
    have hlt := hr r hr1
    refine ⟨r, cs[r], hr2, List.getElem?_eq_getElem hlt, ?_, hr3⟩
    have := hroot r hr1
    unfold par at this
    rw [List.getElem?_eq_getElem hlt] at this
    exact this

/-- C30, for the result of `contours`. -/
theorem C30_contours (t : Topo K W) (inside : W → Bool) (hc : Consistent t) (fuel : Nat) (cs : List Contour)
    (h : contours t inside fuel = some cs) :
    ∃ gs, grouped cs cs.length = some gs ∧ gs.flatten.Perm (List.range cs.length) ∧
      ∀ g ∈ gs, ∃ r R, g.head? = some r ∧ cs[r]? = some R ∧ R.parent = none ∧ R.outer = true ∧ ∀ j, j ∈ g ↔ Under cs r j := by
  obtain ⟨gs, g1, g2, g3⟩ := C30_grouped cs
    (fun i C p hi hp => ((C29_forest t inside hc fuel cs h i C hi).2 p hp).1) cs.length (le_refl _)
  refine ⟨gs, g1, g2, ?_⟩
  intro g hg
  obtain ⟨r, R, r1, r2, r3, r4⟩ := g3 g hg
  exact ⟨r, R, r1, r2, r3, (C29_forest t inside hc fuel cs h r R r2).1 r3, r4⟩

/-! ## Examples -/

/-- A set with a hole that touches the outer boundary at the topmost point: segments 0 and 3 go from point 0 to point 2
and bound the set, segments 1 and 2 go from point 0 to point 1 and bound the hole. -/
def touching : Topo Int Int where
  n := 4
  openSegs := fun _ => []
  winding := fun i => match i with | 0 => ⟨0, 1⟩ | 1 => ⟨1, 0⟩ | 2 => ⟨0, 1⟩ | _ => ⟨1, 0⟩
  points := [(0, 0), (0, 1), (0, 2)]
  pointIdx := fun h => if h.first then some 0 else if h.idx = 1 ∨ h.idx = 2 then some 1 else some 2
  nb := fun h => match h.first, h.idx with
    | true, 0 => ⟨⟨3, true⟩, ⟨1, true⟩⟩
    | true, 1 => ⟨⟨0, true⟩, ⟨2, true⟩⟩
    | true, 2 => ⟨⟨1, true⟩, ⟨3, true⟩⟩
    | true, _ => ⟨⟨2, true⟩, ⟨0, true⟩⟩
    | false, 0 => ⟨⟨3, false⟩, ⟨3, false⟩⟩
    | false, 1 => ⟨⟨2, false⟩, ⟨2, false⟩⟩
    | false, 2 => ⟨⟨1, false⟩, ⟨1, false⟩⟩
    | false, _ => ⟨⟨0, false⟩, ⟨0, false⟩⟩
  deleted := fun _ => false
  scanWest := fun i => match i with | 0 => none | n + 1 => some n
  scanEast := fun _ => none
  scanAfter := []
  origSeg := fun i => i
  positive := fun i => i == 0 || i == 2

def nonzero (w : Int) : Bool := w != 0

theorem touching_consistent : Consistent touching := by
  have key : ∀ h : Half, h.idx < 4 → h = ⟨0, true⟩ ∨ h = ⟨0, false⟩ ∨ h = ⟨1, true⟩ ∨ h = ⟨1, false⟩ ∨ h = ⟨2, true⟩ ∨ h = ⟨2, false⟩ ∨
      h = ⟨3, true⟩ ∨ h = ⟨3, false⟩ := by
    rintro ⟨i, f⟩ h
    simp only at h
    rcases i with _ | _ | _ | _ | i <;> cases f <;> simp
    all_goals omega
  constructor
  · intro h hl
    rcases key h hl.1 with rfl | rfl | rfl | rfl | rfl | rfl | rfl | rfl <;> simp [touching, Live]
  · intro h hl
    rcases key h hl.1 with rfl | rfl | rfl | rfl | rfl | rfl | rfl | rfl <;> simp [touching]
  · intro h hl
    rcases key h hl.1 with rfl | rfl | rfl | rfl | rfl | rfl | rfl | rfl <;>
      simp [touching, Topo.windingCw, Topo.windingCcw]
  · intro i hi j hj
    cases i with
    | zero => simp [touching] at hj
    | succ i => simp [touching] at hj; omega

theorem touching_west : ∀ i < touching.n, touching.deleted i = false →
    ∀ r, LiveWest touching (touching.scanWest i) r → (touching.winding i).cw = eastOf touching r := by
  intro i hi _ r hr
  have hi : i < 4 := hi
  cases i with
  | zero => cases hr; rfl
  | succ i =>
    have hr : LiveWest touching (some i) r := hr
    cases hr with
    | skip _ _ h => simp [touching] at h
    | live _ h =>
      rcases i with _ | _ | _ | i
      · rfl
      · rfl
      · rfl
      · omega

/-- The hole is reported as the outer contour, and the outer boundary as its child. -/
theorem touching_result : (contours touching nonzero 9).map (fun cs => cs.map fun c => (c.path, c.parent, c.outer)) =
    some [([⟨2, false⟩, ⟨1, true⟩], none, true), ([⟨0, false⟩, ⟨3, true⟩], some 0, false)] := by decide

/-- C52 fails when contours touch at the point where the walk starts: in `touching`, the boundary of the set against the
unbounded region is not flagged as outer, although the set is not on the left of its first segment. -/
theorem C52_touching : Consistent touching ∧ nonzero 0 = false ∧
    ∃ (cs : List Contour) (c : Nat) (C : Contour), contours touching nonzero 9 = some cs ∧ cs[c]? = some C ∧ C.path = [⟨0, false⟩, ⟨3, true⟩] ∧
      nonzero (touching.winding 0).cw = false ∧ C.outer = false ∧ C.parent = some 0 := by
  refine ⟨touching_consistent, rfl, ?_⟩
  have h := touching_result
  cases hcs : contours touching nonzero 9 with
  | none => rw [hcs] at h; simp at h
  | some cs =>
    rw [hcs] at h
    simp only [Option.map_some, Option.some.injEq] at h
    have hlen : cs.length = 2 := by have := congrArg List.length h; simpa using this
    refine ⟨cs, 1, cs[1], rfl, List.getElem?_eq_getElem (by omega), ?_⟩
    have h1 := congrArg (fun l => l[1]?) h
    simp only [List.getElem?_map, List.getElem?_eq_getElem (show 1 < cs.length by omega), Option.map_some] at h1
    simp only [List.getElem?_cons_succ, List.getElem?_cons_zero, Option.some.injEq, Prod.mk.injEq] at h1
    exact ⟨h1.1, rfl, h1.2.2, h1.2.1⟩

/-- A set with a hole: segments 0 and 1 go from point 0 to point 3 and bound the set, segments 2 and 3 go from point 1 to
point 2 and bound the hole. -/
def nested : Topo Int Int where
  n := 4
  openSegs := fun _ => []
  winding := fun i => match i with | 0 => ⟨0, 1⟩ | 1 => ⟨1, 0⟩ | 2 => ⟨1, 0⟩ | _ => ⟨0, 1⟩
  points := [(0, 0), (0, 1), (0, 2), (0, 3)]
  pointIdx := fun h => match h.first, h.idx with
    | true, 0 => some 0
    | true, 1 => some 0
    | false, 0 => some 3
    | false, 1 => some 3
    | true, _ => some 1
    | false, _ => some 2
  nb := fun h => match h.idx with
    | 0 => ⟨⟨1, h.first⟩, ⟨1, h.first⟩⟩
    | 1 => ⟨⟨0, h.first⟩, ⟨0, h.first⟩⟩
    | 2 => ⟨⟨3, h.first⟩, ⟨3, h.first⟩⟩
    | _ => ⟨⟨2, h.first⟩, ⟨2, h.first⟩⟩
  deleted := fun _ => false
  scanWest := fun i => match i with | 0 => none | 1 => some 0 | 2 => some 0 | _ => some 2
  scanEast := fun _ => none
  scanAfter := []
  origSeg := fun i => i
  positive := fun i => i == 0 || i == 3

theorem nested_consistent : Consistent nested := by
  have key : ∀ h : Half, h.idx < 4 → h = ⟨0, true⟩ ∨ h = ⟨0, false⟩ ∨ h = ⟨1, true⟩ ∨ h = ⟨1, false⟩ ∨ h = ⟨2, true⟩ ∨ h = ⟨2, false⟩ ∨
      h = ⟨3, true⟩ ∨ h = ⟨3, false⟩ := by
    rintro ⟨i, f⟩ h
    simp only at h
    rcases i with _ | _ | _ | _ | i <;> cases f <;> simp
    all_goals omega
  constructor
  · intro h hl
    rcases key h hl.1 with rfl | rfl | rfl | rfl | rfl | rfl | rfl | rfl <;> simp [nested, Live]
  · intro h hl
    rcases key h hl.1 with rfl | rfl | rfl | rfl | rfl | rfl | rfl | rfl <;> simp [nested]
  · intro h hl
    rcases key h hl.1 with rfl | rfl | rfl | rfl | rfl | rfl | rfl | rfl <;>
      simp [nested, Topo.windingCw, Topo.windingCcw]
  · intro i hi j hj
    have hi : i < 4 := hi
    rcases i with _ | _ | _ | _ | i <;> simp [nested] at hj <;> omega

/-- The hypotheses of `C52_label_partial` are met by `nested`, and the result is as expected. -/
example : Consistent nested ∧
    (∀ i < nested.n, nested.deleted i = false → ∀ r, LiveWest nested (nested.scanWest i) r →
      (nested.winding i).cw = eastOf nested r) ∧
    (contours nested nonzero 9).map (fun cs => cs.map fun c => (c.path, c.parent, c.outer)) =
      some [([⟨0, false⟩, ⟨1, true⟩], none, true), ([⟨2, true⟩, ⟨3, false⟩], some 0, false)] ∧
    ∃ cs : List Contour, contours nested nonzero 9 = some cs ∧ ∀ (c : Nat) (C : Contour), cs[c]? = some C → ¬ SharesPoint nested cs c C := by
  have hres : (contours nested nonzero 9).map (fun cs => cs.map fun c => (c.path, c.parent, c.outer)) =
      some [([⟨0, false⟩, ⟨1, true⟩], none, true), ([⟨2, true⟩, ⟨3, false⟩], some 0, false)] := by decide
  refine ⟨nested_consistent, ?_, hres, ?_⟩
  · intro i hi _ r hr
    have hi : i < 4 := hi
    have live : ∀ j r, LiveWest nested (some j) r → r = some j := by
      intro j r h
      cases h with
      | live => rfl
      | skip _ _ h => simp [nested] at h
    rcases i with _ | _ | _ | _ | i
    · cases hr; rfl
    · rw [live 0 r hr]; rfl
    · rw [live 0 r hr]; rfl
    · rw [live 2 r hr]; rfl
    · omega
  · cases hcs : contours nested nonzero 9 with
    | none => rw [hcs] at hres; simp at hres
    | some cs =>
      rw [hcs] at hres
      simp only [Option.map_some, Option.some.injEq] at hres
      refine ⟨cs, rfl, ?_⟩
      have hp : cs.map Contour.path = [[⟨0, false⟩, ⟨1, true⟩], [⟨2, true⟩, ⟨3, false⟩]] := by
        have := congrArg (List.map Prod.fst) hres
        rw [List.map_map] at this
        exact this
      have path : ∀ (c : Nat) (C : Contour), cs[c]? = some C →
          (c = 0 ∧ C.path = [⟨0, false⟩, ⟨1, true⟩]) ∨ (c = 1 ∧ C.path = [⟨2, true⟩, ⟨3, false⟩]) := by
        intro c C h
        have := congrArg (fun l => l[c]?) hp
        simp only [List.getElem?_map, h, Option.map_some] at this
        rcases c with _ | _ | c
        · left; simpa using this
        · right; simpa using this
        · simp at this
      rintro c C hC ⟨c', C', hne, hC', x, hx, y, hy, hxy⟩
      rcases path c C hC with ⟨rfl, h1⟩ | ⟨rfl, h1⟩ <;> rcases path c' C' hC' with ⟨rfl, h2⟩ | ⟨rfl, h2⟩
      · exact hne rfl
      · rw [h1] at hx; rw [h2] at hy
        simp only [List.mem_cons, List.not_mem_nil, or_false] at hx hy
        rcases hx with rfl | rfl <;> rcases hy with rfl | rfl <;> simp [nested] at hxy
      · rw [h1] at hx; rw [h2] at hy
        simp only [List.mem_cons, List.not_mem_nil, or_false] at hx hy
        rcases hx with rfl | rfl <;> rcases hy with rfl | rfl <;> simp [nested] at hxy
      · exact hne rfl

/-- Grouping a forest with two roots and nested children. -/
example : (∀ (i : Nat) (C : Contour) (p : Nat), [(⟨[], none, true⟩ : Contour), ⟨[], some 0, false⟩, ⟨[], none, true⟩, ⟨[], some 1, true⟩,
      ⟨[], some 0, false⟩][i]? = some C → C.parent = some p → p < i) ∧
    grouped [⟨[], none, true⟩, ⟨[], some 0, false⟩, ⟨[], none, true⟩, ⟨[], some 1, true⟩, ⟨[], some 0, false⟩] 5 =
      some [[0, 1, 3, 4], [2]] := by
  constructor
  · intro i C p h
    rcases i with _ | _ | _ | _ | _ | i <;> simp at h
    all_goals (subst h; simp)
    all_goals omega
  · simp [grouped, groupLoop, List.range, List.range.loop, groupTop, visit, visitAll, Topo.set]

/-! ## From the construction -/

/-- The topology built by the sweep is consistent. -/
theorem run_consistent {K : Type} [LinearOrder K] {W : Type} [AddCommGroup W] (single : Nat → Bool → W) (orient : Nat → Bool)
    (hsingle : ∀ s b, single s (!b) = - single s b)
    (hist : List (K × Verif.Range.OutputEvent K)) (t : Topo K W) (hr : Run single orient hist [] t) : Consistent t := by
  have inv := hr.inv hsingle
  have hpt : ∀ h, Live t h → ∃ p, t.pointIdx h = some p := by
    intro h hl
    obtain ⟨p, hp, _⟩ := (C24_one_open single orient hsingle hist [] t hr).2.2 rfl h hl.1
    exact ⟨p, hp⟩
  refine ⟨?_, hpt, ?_, inv.good.west⟩
  · intro h hl
    obtain ⟨p, hp⟩ := hpt h hl
    obtain ⟨L, r1, r2, _⟩ := inv.good.rings p (inv.good.ptLt h p hp).1
    obtain ⟨c1, c2⟩ := r1.cw ((r2 h).2 hp)
    have hp' := (r2 _).1 c1
    have hlt := (inv.good.ptLt _ _ hp').2
    exact ⟨⟨hlt, inv.good.notDeleted _ hlt⟩, c2, by rw [hp', hp]⟩
  · intro h hl
    obtain ⟨p, hp⟩ := hpt h hl
    exact C25_local single orient hsingle hist [] t hr h p hp

end Verif.Contours
