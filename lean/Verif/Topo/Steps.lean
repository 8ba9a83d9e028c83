import Mathlib.Algebra.Group.Basic
import Mathlib.Algebra.BigOperators.Group.List.Basic
import Verif.Topo.Ring

/-! Specifications of the helper functions of `process_sweep_line_range`. -/

namespace Verif.Topo
open Verif.Range
set_option linter.unusedSectionVars false

variable {K : Type} [LinearOrder K] {W : Type} [AddCommGroup W]

/-- Crossing the output segments `l` one after the other from the clockwise to the counter-clockwise side
changes the winding number from `u` to `v`. -/
def WLine (wd : Nat → HW W) : W → List Nat → W → Prop
  | u, [], v => u = v
  | u, i :: l, v => (wd i).cw = u ∧ WLine wd (wd i).ccw l v

/-- Walking clockwise across the half-segments `L` changes the winding number from `u` to `v`. -/
def WPath (cw ccw : Half → W) : W → List Half → W → Prop
  | u, [], v => u = v
  | u, h :: L, v => ccw h = u ∧ WPath cw ccw (cw h) L v

theorem WLine.append {wd : Nat → HW W} {l1 l2 : List Nat} {u m v : W} (h1 : WLine wd u l1 m)
    (h2 : WLine wd m l2 v) : WLine wd u (l1 ++ l2) v := by
  induction l1 generalizing u with
  | nil => simp only [WLine] at h1; rw [h1]; exact h2
  | cons i l1 ih => exact ⟨h1.1, ih h1.2⟩

theorem WLine.split {wd : Nat → HW W} {l1 l2 : List Nat} {u v : W} (h : WLine wd u (l1 ++ l2) v) :
    ∃ m, WLine wd u l1 m ∧ WLine wd m l2 v := by
  induction l1 generalizing u with
  | nil => exact ⟨u, rfl, h⟩
  | cons i l1 ih =>
    obtain ⟨m, h1, h2⟩ := ih h.2
    exact ⟨m, ⟨h.1, h1⟩, h2⟩

theorem WLine.congr {wd wd' : Nat → HW W} {l : List Nat} {u v : W} (h : WLine wd u l v)
    (he : ∀ i ∈ l, wd' i = wd i) : WLine wd' u l v := by
  induction l generalizing u with
  | nil => exact h
  | cons i l ih =>
    have := he i (by simp)
    refine ⟨by rw [this]; exact h.1, ?_⟩
    rw [this]
    exact ih h.2 (fun j hj => he j (List.mem_cons_of_mem _ hj))

theorem WLine.sum {wd : Nat → HW W} {l : List Nat} {u v : W} (h : WLine wd u l v) (d : Nat → W)
    (hd : ∀ i ∈ l, (wd i).ccw = (wd i).cw + d i) : v = u + (l.map d).sum := by
  induction l generalizing u with
  | nil => simp only [WLine] at h; simp [h]
  | cons i l ih =>
    have h1 := ih h.2 (fun j hj => hd j (List.mem_cons_of_mem _ hj))
    rw [h1, hd i (by simp), h.1, List.map_cons, List.sum_cons, add_assoc]

theorem WPath.append {cw ccw : Half → W} {l1 l2 : List Half} {u m v : W} (h1 : WPath cw ccw u l1 m)
    (h2 : WPath cw ccw m l2 v) : WPath cw ccw u (l1 ++ l2) v := by
  induction l1 generalizing u with
  | nil => simp only [WPath] at h1; rw [h1]; exact h2
  | cons i l1 ih => exact ⟨h1.1, ih h1.2⟩

theorem WPath.congr {cw ccw cw' ccw' : Half → W} {L : List Half} {u v : W} (h : WPath cw ccw u L v)
    (h1 : ∀ a ∈ L, cw' a = cw a) (h2 : ∀ a ∈ L, ccw' a = ccw a) : WPath cw' ccw' u L v := by
  induction L generalizing u with
  | nil => exact h
  | cons i l ih =>
    refine ⟨by rw [h2 i (by simp)]; exact h.1, ?_⟩
    rw [h1 i (by simp)]
    exact ih h.2 (fun j hj => h1 j (List.mem_cons_of_mem _ hj)) (fun j hj => h2 j (List.mem_cons_of_mem _ hj))

theorem WPath.second (t : Topo K W) {l : List Nat} {u v : W} (h : WLine t.winding u l v) :
    WPath t.windingCw t.windingCcw u (l.map fun i => ⟨i, false⟩) v := by
  induction l generalizing u with
  | nil => exact h
  | cons i l ih =>
    refine ⟨?_, ?_⟩
    · simp only [Topo.windingCcw]; exact h.1
    · simp only [Topo.windingCw]; exact ih h.2

theorem WPath.firstRev (t : Topo K W) {l : List Nat} {u v : W} (h : WLine t.winding u l v) :
    WPath t.windingCw t.windingCcw v (l.map fun i => (⟨i, true⟩ : Half)).reverse u := by
  induction l generalizing u with
  | nil => exact h.symm
  | cons i l ih =>
    rw [List.map_cons, List.reverse_cons]
    refine (ih h.2).append ⟨?_, ?_⟩
    · simp [Topo.windingCcw]
    · simp only [WPath, Topo.windingCw, if_true]; exact h.1

/-! ## `secondHalves` -/

theorem secondHalves_spec (segs : List Nat) : ∀ (t : Topo K W) (f : Nat → Nat) (g : Nat → List Nat),
    segs.Nodup → (∀ s ∈ segs, t.openSegs s = f s :: g s) →
    secondHalves segs t = some (segs.map fun s => ⟨f s, false⟩,
      { t with openSegs := fun s => if s ∈ segs then g s else t.openSegs s }) := by
  induction segs with
  | nil => intro t f g _ _; simp [secondHalves]
  | cons s ss ih =>
    intro t f g hnd h
    have hs := h s (by simp)
    rw [List.nodup_cons] at hnd
    simp only [secondHalves, hs]
    rw [ih { t with openSegs := set t.openSegs s (g s) } f g hnd.2 (by
      intro a ha
      have : a ≠ s := fun e => hnd.1 (e ▸ ha)
      simp only [set, this, if_false]
      exact h a (List.mem_cons_of_mem _ ha))]
    simp only [List.map_cons, Option.some.injEq, Prod.mk.injEq, true_and]
    congr 1
    funext a
    simp only [set, List.mem_cons]
    by_cases q1 : a ∈ ss
    · simp [q1]
    · by_cases q2 : a = s
      · subst q2; simp [q1]
      · simp [q1, q2]

/-! ## `placeNew` -/

/-- What the allocation loops do. `f` tells which output segment was allocated for which input segment. -/
structure Placed (single : Nat → Bool → W) (horizontal : Bool) (p : Nat) (ds : List (Nat × Bool))
    (s s' : NewState K W) (f : Nat → Nat) : Prop where
  outs : (ds.map Prod.fst).map f = List.range' s.t.n ds.length
  n : s'.t.n = s.t.n + ds.length
  buf : s'.buf = s.buf ++ (List.range' s.t.n ds.length).map fun i => ⟨i, true⟩
  points : s'.t.points = s.t.points
  scanAfter : s'.t.scanAfter = s.t.scanAfter
  winding_old : ∀ i < s.t.n, s'.t.winding i = s.t.winding i
  deleted_old : ∀ i < s.t.n, s'.t.deleted i = s.t.deleted i
  west_old : ∀ i < s.t.n, s'.t.scanWest i = s.t.scanWest i
  east_old : ∀ i < s.t.n, s'.t.scanEast i = s.t.scanEast i
  orig_old : ∀ i < s.t.n, s'.t.origSeg i = s.t.origSeg i
  positive_old : ∀ i < s.t.n, s'.t.positive i = s.t.positive i
  nb_old : ∀ h : Half, h.idx < s.t.n → s'.t.nb h = s.t.nb h
  pointIdx_old : ∀ h : Half, h.idx < s.t.n → s'.t.pointIdx h = s.t.pointIdx h
  pointIdx_beyond : ∀ h : Half, s'.t.n ≤ h.idx → s'.t.pointIdx h = s.t.pointIdx h
  pointIdx_new : ∀ i, s.t.n ≤ i → i < s'.t.n → s'.t.pointIdx ⟨i, true⟩ = some p ∧ s'.t.pointIdx ⟨i, false⟩ = none
  nb_new : ∀ h : Half, s.t.n ≤ h.idx → h.idx < s'.t.n → s'.t.nb h = ⟨⟨h.idx, true⟩, ⟨h.idx, true⟩⟩
  deleted_new : ∀ i, s.t.n ≤ i → i < s'.t.n → s'.t.deleted i = false
  east_new : ∀ i, s.t.n ≤ i → i < s'.t.n → s'.t.scanEast i = none
  orig_new : ∀ sg o, (sg, o) ∈ ds → s'.t.origSeg (f sg) = sg ∧ s'.t.positive (f sg) = o
  opens : ∀ sg, s'.t.openSegs sg = if sg ∈ ds.map Prod.fst then
      (if horizontal then f sg :: s.t.openSegs sg else s.t.openSegs sg ++ [f sg]) else s.t.openSegs sg
  line : WLine s'.t.winding s.winding (List.range' s.t.n ds.length) s'.winding
  sgn : ∀ i, s.t.n ≤ i → i < s'.t.n → (s'.t.winding i).ccw =
      (s'.t.winding i).cw + single (s'.t.origSeg i) (s'.t.positive i)
  sum : s'.winding = s.winding + (ds.map fun d => single d.1 d.2).sum
  scanWest : s'.scanWest = if horizontal then s.scanWest else
      ((List.range' s.t.n ds.length).getLast?).or s.scanWest
  west_new : ∀ i, s.t.n ≤ i → i < s'.t.n → s'.t.scanWest i =
      if horizontal = true ∨ i = s.t.n then s.scanWest else some (i - 1)
  lastDown : s'.lastDown = if horizontal then s.lastDown else
      ((List.range' s.t.n ds.length).getLast?).or s.lastDown

theorem placeNew_spec (single : Nat → Bool → W) (horizontal : Bool) (p : Nat) (ds : List (Nat × Bool)) :
    ∀ s : NewState K W, (ds.map Prod.fst).Nodup →
    ∃ f, Placed single horizontal p ds s (placeNew single horizontal p ds s) f := by
  induction ds with
  | nil =>
    intro s _
    refine ⟨fun _ => 0, ?_⟩
    simp only [placeNew]
    constructor <;> (try simp [WLine]) <;> (try (intros; omega))
  | cons d ds ih =>
    obtain ⟨seg, o⟩ := d
    intro s hnd
    rw [List.map_cons, List.nodup_cons] at hnd
    simp only [placeNew]
    generalize hs1 : ({ t := _, winding := _, scanWest := _, lastDown := _, buf := _ } : NewState K W) = s1
    obtain ⟨f, h⟩ := ih s1 hnd.2
    generalize placeNew single horizontal p ds s1 = s' at h
    have hn1 : s1.t.n = s.t.n + 1 := by rw [← hs1]; rfl
    have hlen : ((seg, o) :: ds).length = ds.length + 1 := rfl
    have hrange : List.range' s.t.n (ds.length + 1) = s.t.n :: List.range' s1.t.n ds.length := by
      rw [hn1]; rfl
    have w1 : s1.t.winding = set s.t.winding s.t.n ⟨s.winding, s.winding + single seg o⟩ := by rw [← hs1]; rfl
    have o1 : s1.t.origSeg = set s.t.origSeg s.t.n seg := by rw [← hs1]; rfl
    have p1 : s1.t.positive = set s.t.positive s.t.n o := by rw [← hs1]; rfl
    have d1 : s1.t.deleted = set s.t.deleted s.t.n false := by rw [← hs1]; rfl
    have e1 : s1.t.scanEast = set s.t.scanEast s.t.n none := by rw [← hs1]; rfl
    have sw1 : s1.t.scanWest = set (set s.t.scanWest s.t.n none) s.t.n s.scanWest := by rw [← hs1]; rfl
    have pi1 : s1.t.pointIdx = set (set s.t.pointIdx ⟨s.t.n, true⟩ (some p)) ⟨s.t.n, false⟩ none := by
      rw [← hs1]; rfl
    have nb1 : s1.t.nb = set (set s.t.nb ⟨s.t.n, true⟩ ⟨⟨s.t.n, true⟩, ⟨s.t.n, true⟩⟩) ⟨s.t.n, false⟩
        ⟨⟨s.t.n, true⟩, ⟨s.t.n, true⟩⟩ := by rw [← hs1]; rfl
    have op1 : s1.t.openSegs = set s.t.openSegs seg
        (if horizontal then s.t.n :: s.t.openSegs seg else s.t.openSegs seg ++ [s.t.n]) := by rw [← hs1]; rfl
    have wd1 : s1.winding = s.winding + single seg o := by rw [← hs1]
    have ssw : s1.scanWest = if horizontal then s.scanWest else some s.t.n := by rw [← hs1]
    have sld : s1.lastDown = if horizontal then s.lastDown else some s.t.n := by rw [← hs1]
    have hfseg : ∀ sg ∈ ds.map Prod.fst, sg ≠ seg := fun sg h e => hnd.1 (e ▸ h)
    refine ⟨fun sg => if sg = seg then s.t.n else f sg, ?_⟩
    constructor
    · rw [hlen, hrange, ← h.outs]
      simp only [List.map_cons, if_true, List.cons.injEq, true_and]
      apply List.map_congr_left
      intro a ha; simp [hfseg a ha]
    · rw [h.n, hn1, hlen]; omega
    · rw [h.buf, hlen, hrange, ← hs1]; simp
    · rw [h.points, ← hs1]; rfl
    · rw [h.scanAfter, ← hs1]; rfl
    · intro i hi; rw [h.winding_old i (by omega), w1]; simp [set, Nat.ne_of_lt hi]
    · intro i hi; rw [h.deleted_old i (by omega), d1]; simp [set, Nat.ne_of_lt hi]
    · intro i hi; rw [h.west_old i (by omega), sw1]; simp [set, Nat.ne_of_lt hi]
    · intro i hi; rw [h.east_old i (by omega), e1]; simp [set, Nat.ne_of_lt hi]
    · intro i hi; rw [h.orig_old i (by omega), o1]; simp [set, Nat.ne_of_lt hi]
    · intro i hi; rw [h.positive_old i (by omega), p1]; simp [set, Nat.ne_of_lt hi]
    · intro a ha
      rw [h.nb_old a (by omega), nb1]
      have : a ≠ ⟨s.t.n, true⟩ := by rintro rfl; simp at ha
      have : a ≠ ⟨s.t.n, false⟩ := by rintro rfl; simp at ha
      simp [set, *]
    · intro a ha
      rw [h.pointIdx_old a (by omega), pi1]
      have : a ≠ ⟨s.t.n, true⟩ := by rintro rfl; simp at ha
      have : a ≠ ⟨s.t.n, false⟩ := by rintro rfl; simp at ha
      simp [set, *]
    · intro a ha
      rw [h.pointIdx_beyond a ha, pi1]
      have hn := h.n
      have : a ≠ ⟨s.t.n, true⟩ := by rintro rfl; simp at ha; omega
      have : a ≠ ⟨s.t.n, false⟩ := by rintro rfl; simp at ha; omega
      simp [set, *]
    · intro i h1 h2
      by_cases hi : i = s.t.n
      · subst hi
        rw [h.pointIdx_old _ (by simp only; omega), h.pointIdx_old _ (by simp only; omega), pi1]
        simp [set]
      · exact h.pointIdx_new i (by omega) h2
    · intro a h1 h2
      by_cases hi : a.idx = s.t.n
      · rw [h.nb_old a (by omega), nb1]
        obtain ⟨ai, ab⟩ := a
        simp only at hi; subst hi
        cases ab <;> simp [set]
      · exact h.nb_new a (by omega) h2
    · intro i h1 h2
      by_cases hi : i = s.t.n
      · subst hi
        rw [h.deleted_old _ (by omega), d1]; simp [set]
      · exact h.deleted_new i (by omega) h2
    · intro i h1 h2
      by_cases hi : i = s.t.n
      · subst hi
        rw [h.east_old _ (by omega), e1]; simp [set]
      · exact h.east_new i (by omega) h2
    · intro sg o' hm
      rw [List.mem_cons] at hm
      rcases hm with hm | hm
      · simp only [Prod.mk.injEq] at hm
        obtain ⟨rfl, rfl⟩ := hm
        simp only [if_true]
        rw [h.orig_old _ (by omega), h.positive_old _ (by omega), o1, p1]
        simp [set]
      · have := hfseg sg (List.mem_map_of_mem (f := Prod.fst) hm)
        simp only [this, if_false]
        exact h.orig_new sg o' hm
    · intro sg
      rw [h.opens sg, op1]
      simp only [List.map_cons, List.mem_cons, set]
      by_cases q1 : sg = seg
      · subst q1
        simp [hnd.1]
      · by_cases q2 : sg ∈ ds.map Prod.fst <;> simp [q1, q2]
    · rw [hlen, hrange]
      refine ⟨?_, ?_⟩
      · rw [h.winding_old _ (by omega), w1]; simp [set]
      · rw [h.winding_old _ (by omega), w1]; simp only [set, if_true]
        rw [← wd1]; exact h.line
    · intro i h1 h2
      by_cases hi : i = s.t.n
      · subst hi
        rw [h.winding_old _ (by omega), h.orig_old _ (by omega), h.positive_old _ (by omega), w1, o1, p1]
        simp [set]
      · exact h.sgn i (by omega) h2
    · rw [h.sum, wd1]; simp [add_assoc]
    · rw [h.scanWest, hlen, hrange, ssw]
      cases horizontal
      · simp only [List.getLast?_cons]
        cases (List.range' s1.t.n ds.length).getLast? <;> simp
      · simp
    · intro i h1 h2
      by_cases hi : i = s.t.n
      · subst hi
        rw [h.west_old _ (by omega), sw1]; simp [set]
      · rw [h.west_new i (by omega) h2, ssw]
        cases horizontal
        · by_cases h3 : i = s1.t.n
          · have : i - 1 = s.t.n := by omega
            simp [h3, hn1]
          · simp [h3, hi]
        · simp
    · rw [h.lastDown, hlen, hrange, sld]
      cases horizontal
      · simp only [List.getLast?_cons]
        cases (List.range' s1.t.n ds.length).getLast? <;> simp
      · simp

end Verif.Topo
