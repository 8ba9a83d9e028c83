import Verif.Full.Planar
import Verif.Full.Result
import Verif.Full.Adjacent
import Verif.BinOp.Props

/-! # Boolean operations on the whole -/

namespace Verif.Full
open Verif.Segs (Segments PathSeg PathEl Origin)
open Verif.Merge (EndAdjacent mergeCoincident)
open Verif.BinOp (FillRule Op BinaryWinding InShape Combine)
set_option linter.unusedSectionVars false

/-! ## Planar inputs -/

section
variable {T W : Type} [AddCommGroup W] [DecidableEq W]
variable {cfg : Cfg} {s : Segments ℝ} {tags : List T} {single : T → Bool → W} {fuel2 fuel : Nat} {t t' : Topo.Topo ℝ W}

/-- If nothing crosses, every point splits the line above it. -/
theorem planar_splits (h : Arena s tags) (he : 0 < cfg.eps) (hpp : Searches cfg.pp) (hsolve : Geom.FindsRoots cfg.solve) (hN : NoCross s)
    (hR : Resolved cfg s) {fuel : Nat} {st : Sweep.State ℝ} {x z : ℝ} (hst : st = Sweep.State.new (env cfg s) ∨ (Sweep.Reached (env cfg s) fuel st ∧ st.y ≤ z))
    (hm : ∀ a, a ∈ Sweep.newSegs st.line ↔ a < s.len ∧ (segAt s a).start.y ≤ z ∧ z < (segAt s a).stop.y) : SplitsAt s st x z := by
  rcases hst with rfl | ⟨hr, -⟩
  · exact List.Pairwise.nil
  have hg := (Sweep.Reached.good (env_sched h) (env_pp hpp) (env_planar h he hsolve hN hR) hr).1
  refine (hg.sublist (Sweep.newSegs_sublist _)).imp_of_mem ?_
  intro a b ha hb hab hlt
  obtain ⟨_, a1, a2⟩ := (hm a).1 ha
  obtain ⟨_, b1, b2⟩ := (hm b).1 hb
  by_contra hge
  exact hab ⟨z, ⟨b1, b2.le⟩, ⟨a1, a2.le⟩, lt_of_lt_of_le hlt (not_lt.1 hge)⟩

/-- In general: between the lines the order is right up to the tolerance. -/
def BetweenOrder (cfg : Cfg) (s : Segments ℝ) (fuel : Nat) (z : ℝ) : Prop :=
  ∀ st, Sweep.Reached (env cfg s) fuel st → st.y ≤ z → Sweep.LastBefore (env cfg s) fuel z st → (Sweep.newSegs st.line).Pairwise (West cfg s z)

/-- All points of the input that are at most `eps` higher or lower than the point are at least `eps` to the left or at least `eps` to the right. -/
def Away (cfg : Cfg) (s : Segments ℝ) (x z : ℝ) : Prop :=
  ∀ a < s.len, (segAt s a).start.y ≤ z → z < (segAt s a).stop.y → Clear cfg.eps s x z a

theorem gap_at (h : Arena s tags) (he : 0 < cfg.eps) (hpp : Searches cfg.pp) (hn : ∀ t b, single t (!b) = - single t b) (ho : LineOrder cfg s fuel2)
    (hs : sweep cfg single s tags fuel2 fuel = some t) : ∃ m, Scan.buildScanLineOrders t = some m ∧ ∀ x z, BetweenOrder cfg s fuel2 z → Away cfg s x z →
      ∃ l1 l2, GapAt s t m x z (windArena cfg s tags single x z) l1 l2 := by
  obtain ⟨m, hm, H⟩ := gap_core h (env_valid h he hpp single hn ho) hs
  refine ⟨m, hm, fun x z hb ha => ?_⟩
  obtain ⟨st, L, h1, h2, _, _, h5, h6⟩ := H z
  obtain ⟨l1, l2, _, hg⟩ := h6 x <| by
    rcases h1 with rfl | ⟨hr, hy⟩
    · exact List.Pairwise.nil
    · exact splits_of_west he h5 (hb st hr hy h2) ha
  exact ⟨l1, l2, hg⟩

theorem gap_planar (h : Arena s tags) (he : 0 < cfg.eps) (hpp : Searches cfg.pp) (hsolve : Geom.FindsRoots cfg.solve)
    (hn : ∀ t b, single t (!b) = - single t b) (hN : NoCross s) (hR : Resolved cfg s)
    (hs : sweep cfg single s tags fuel2 fuel = some t) : ∃ m, Scan.buildScanLineOrders t = some m ∧ ∀ x z,
      ∃ l1 l2, GapAt s t m x z (windArena cfg s tags single x z) l1 l2 := by
  obtain ⟨m, hm, H⟩ := gap_core h (env_valid h he hpp single hn (planar_order h he hpp hsolve hN hR fuel2)) hs
  refine ⟨m, hm, fun x z => ?_⟩
  obtain ⟨st, L, h1, h2, _, _, h5, h6⟩ := H z
  obtain ⟨l1, l2, _, hg⟩ := h6 x (planar_splits h he hpp hsolve hN hR h1 h5)
  exact ⟨l1, l2, hg⟩

end

/-! ## From the arena to the contours -/

variable {cfg : Cfg} {s s' : Segments ℝ} {tags : List Bool} {rule : FillRule} {op : Op} {fuel : Nat} {t' : Topo.Topo ℝ BinaryWinding}
  {cs : List Contours.Contour}

/-- The topology before coincident segments are merged. -/
theorem finish_ok (h : finish cfg rule op s tags fuel = .ok s' t' cs) : s' = s ∧ ∃ t, sweep cfg BinaryWinding.single s tags fuel fuel = some t ∧
    mergeCoincident (close cfg.eps s) t = some t' ∧ Contours.contours t' (BinOp.inside rule op) fuel = some cs := by
  unfold finish at h
  cases h1 : fromSegments cfg BinaryWinding.single s tags fuel fuel with
  | none => rw [h1] at h; simp at h
  | some t1 =>
    rw [h1] at h
    simp only at h
    cases h2 : Contours.contours t1 (BinOp.inside rule op) fuel with
    | none => rw [h2] at h; simp at h
    | some cs1 =>
      rw [h2] at h
      simp only at h
      injection h with e1 e2 e3
      subst e1 e2 e3
      unfold fromSegments at h1
      cases h3 : sweep cfg BinaryWinding.single s tags fuel fuel with
      | none => rw [h3] at h1; simp at h1
      | some t =>
        rw [h3] at h1
        exact ⟨rfl, t, rfl, h1, h2⟩

theorem finish_winding (ha : Arena s tags) (he : 0 < cfg.eps) (hV : (env cfg s).Valid (contribution BinaryWinding.single tags) fuel)
    (h : finish cfg rule op s tags fuel = .ok s' t' cs) {x z : ℝ} (hx : Away cfg s x z) {n m : Int}
    (hg : ∀ t, sweep cfg BinaryWinding.single s tags fuel fuel = some t → ∃ m' l1 l2, GapAt s t m' x z ⟨n, m⟩ l1 l2) :
    (Combine op (InShape rule n) (InShape rule m) → windContours s t' cs x z = 1) ∧
    (¬ Combine op (InShape rule n) (InShape rule m) → windContours s t' cs x z = 0) := by
  obtain ⟨-, t, h1, h2, h3⟩ := finish_ok h
  obtain ⟨m', l1, l2, hgap⟩ := hg t h1
  have := result_winding ha he hV h1 (end_adjacent ha he hV h1) h2 (BinOp.inside rule op) (BinOp.C20_outside rule op) h3 hx hgap
  rw [this, ← BinOp.C19_inside]
  cases BinOp.inside rule op ⟨n, m⟩ <;> simp

theorem binaryOp_ok {a b : List (PathEl ℝ)} (h : binaryOp cfg a b rule op fuel = .ok s' t' cs) :
    ∃ s tags, buildPaths (tagged a b) = .ok s tags ∧ finish cfg rule op s tags fuel = .ok s' t' cs := by
  unfold binaryOp at h
  cases hb : buildPaths (tagged a b) with
  | err p q => rw [hb] at h; simp at h
  | panic => rw [hb] at h; simp at h
  | ok s tags => rw [hb] at h; exact ⟨s, tags, rfl, h⟩

theorem tagged_wind (a b : List (PathEl ℝ)) (x z : ℝ) :
    ((tagged a b).map fun p => windPath p.1 x z • BinaryWinding.single p.2 true).sum = ⟨windPath a x z, windPath b x z⟩ := by
  rw [← BinaryWinding.turns]
  simp [tagged]

end Verif.Full
