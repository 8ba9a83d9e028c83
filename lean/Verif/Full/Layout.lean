import Verif.Full.Paths
import Verif.Full.Compare
import Verif.Full.Result
import Verif.Full.Planar
import Verif.Pos.Groups

/-!
# The layout of a finished topology

The map that the sweep makes meets all the requirements of `compute_positions`; so the layout never fails. Straight segments stay straight.
-/

namespace Verif.Full
open Verif.Segs (Segments)
open Verif.Curve
set_option linter.unusedSectionVars false

variable {T W : Type} [AddCommGroup W] [DecidableEq W] {cfg : Cfg} {s : Segments ℝ} {tags : List T} {single : T → Bool → W} {fuel2 fuel : Nat}
  {t t' : Topo.Topo ℝ W}

theorem fromSegments_ok (h : fromSegments cfg single s tags fuel2 fuel = some t') :
    ∃ t, sweep cfg single s tags fuel2 fuel = some t ∧ Merge.mergeCoincident (close cfg.eps s) t = some t' := by
  unfold fromSegments at h
  cases h3 : sweep cfg single s tags fuel2 fuel with
  | none => rw [h3] at h; simp at h
  | some t => rw [h3] at h; exact ⟨t, rfl, h⟩

theorem pt_of_runs {i : Nat} {p q : ℝ × ℝ} (h : Topo.Runs t i p q) : Path.pt t ⟨i, true⟩ = ⟨p.1, p.2⟩ ∧ Path.pt t ⟨i, false⟩ = ⟨q.1, q.2⟩ := by
  obtain ⟨a, b, h1, h2, h3, h4⟩ := h
  unfold Path.pt
  simp [h1, h2, h3, h4]

theorem runs_of_sweep (hV : (env cfg s).Valid (contribution single tags) fuel2) (h : sweep cfg single s tags fuel2 fuel = some t) {i : Nat} (hi : i < t.n) :
    ∃ p q, Topo.Runs t i p q := by
  have hp := (Sweep.C61_rings hV h).2.1
  obtain ⟨a, a1, a2⟩ := hp ⟨i, true⟩ hi
  obtain ⟨b, b1, b2⟩ := hp ⟨i, false⟩ hi
  exact ⟨t.points[a], t.points[b], a, b, a1, b1, by simp [a2], by simp [b2]⟩

theorem alive_layout (again : Nat → Nat → Bool) (m : Scan.Maps ℝ) (hV : (env cfg s).Valid (contribution single tags) fuel2)
    (h : sweep cfg single s tags fuel2 fuel = some t) (o : Nat) (z : ℝ) :
    Pos.Alive (layoutInput cfg again s t m) o z ↔ Scan.AliveAt t o z := by
  constructor
  · rintro ⟨h1, h2, h3⟩
    obtain ⟨p, q, hr⟩ := runs_of_sweep hV h h1
    obtain ⟨e1, e2⟩ := pt_of_runs hr
    have h2 : (Path.pt t ⟨o, true⟩).y ≤ z := h2
    have h3 : z < (Path.pt t ⟨o, false⟩).y := h3
    rw [e1] at h2
    rw [e2] at h3
    exact ⟨h1, p, q, hr, h2, h3⟩
  · rintro ⟨h1, p, q, hr, h2, h3⟩
    obtain ⟨e1, e2⟩ := pt_of_runs hr
    refine ⟨h1, ?_, ?_⟩
    · change (Path.pt t ⟨o, true⟩).y ≤ z; rw [e1]; exact h2
    · change z < (Path.pt t ⟨o, false⟩).y; rw [e2]; exact h3

/-- What the sweep returns can be laid out. -/
theorem layout_ok (ha : Arena s tags) (he : 0 < cfg.eps) (hsolve : Geom.FindsRoots cfg.solve) (hV : (env cfg s).Valid (contribution single tags) fuel2)
    (h : sweep cfg single s tags fuel2 fuel = some t) (again : Nat → Nat → Bool) :
    ∃ m, Scan.buildScanLineOrders t = some m ∧ (layoutInput cfg again s t m).Ok := by
  obtain ⟨H, yl, done, hs, _⟩ := Sweep.fromSegments_spec hV.sched hV.exact hV.pp hV.contours hV.ord h
  obtain ⟨m, h1, h2⟩ := Scan.C57_order hV.neg hs rfl
  obtain ⟨m', h1', h3⟩ := Scan.C58_records hV.neg hs rfl
  obtain rfl : m' = m := by
    have e : Scan.buildScanLineOrders t = some m := h1
    have e' : Scan.buildScanLineOrders t = some m' := h1'
    rw [e] at e'; simpa using e'.symm
  have hal := fun o z => alive_layout again m' hV h o z
  refine ⟨m', h1, ?_⟩
  refine ⟨?_, ?_, ?_, ?_, ?_⟩
  · change 0 < cfg.eps / 4; linarith
  · intro i hi
    obtain ⟨p, q, hr⟩ := runs_of_sweep hV h hi
    obtain ⟨e1, e2⟩ := pt_of_runs hr
    change (Path.pt t ⟨i, true⟩).y ≤ (Path.pt t ⟨i, false⟩).y
    rw [e1, e2]
    exact (runs_within hV h hi hr).2.2
  · intro z
    obtain ⟨L, g1, g2, g3, _⟩ := h2 z
    exact ⟨L, g1, fun o => (g2 o).trans (hal o z).symm, g3⟩
  · intro i y o hm
    exact ((h3 i).2.2 y (some o) hm).2 o rfl |>.1
  · intro z i j hi hn
    obtain ⟨L, g1, g2, g3, _⟩ := h2 z
    have hi' := (hal i z).1 hi
    obtain ⟨l1, l2, e⟩ := List.append_of_mem ((g2 i).2 hi')
    have hj : j ∈ L := by
      have := (g3 l1 i l2 e).2
      have hn' : Scan.neighborAfter (m'.east i) z = some j := hn
      rw [hn'] at this
      rw [e]
      simp only [List.mem_append, List.mem_cons]
      exact Or.inr (Or.inr (List.mem_of_mem_head? this.symm))
    have hj' := (g2 j).1 hj
    have cr : ∀ k, Scan.AliveAt t k z → (segAt s (t.origSeg k)).Down ∧ (segAt s (t.origSeg k)).start.y ≤ z ∧ z < (segAt s (t.origSeg k)).stop.y := by
      rintro k ⟨k1, p, q, hr, k2, k3⟩
      obtain ⟨r1, r2, r3⟩ := runs_within hV h k1 hr
      have hm := (Sweep.C61_rings hV h).1 k k1
      have a1 : (segAt s (t.origSeg k)).start.y ≤ z := r1.trans k2
      have a2 : z < (segAt s (t.origSeg k)).stop.y := lt_of_lt_of_le k3 r2
      exact ⟨Slanted.down ha ⟨(mem_segs (cfg := cfg) ha _).1 hm, lt_of_le_of_lt a1 a2⟩, a1, a2⟩
    obtain ⟨d1, a1, a2⟩ := cr i hi'
    obtain ⟨d2, b1, b2⟩ := cr j hj'
    have hc := compare_spec hsolve (tol := cfg.eps) (acc := cfg.eps / 2) (slop := cfg.eps) (by linarith) (by linarith) he again (segAt s) (t.origSeg i) (t.origSeg j) d1 d2
      ((max_le a1 b1).trans (le_min a2.le b2.le))
    obtain ⟨p, hp, hp'⟩ := wf_last_mem hc.stop
    exact ⟨p, hp, by rw [hp']; exact lt_min a2 b2⟩

/-- Merging coincident segments does not change what is laid out. -/
theorem layoutInput_merged (hV : (env cfg s).Valid (contribution single tags) fuel2) (h : sweep cfg single s tags fuel2 fuel = some t)
    (hm : Merge.mergeCoincident (close cfg.eps s) t = some t') (again : Nat → Nat → Bool) (m : Scan.Maps ℝ) :
    layoutInput cfg again s t' m = layoutInput cfg again s t m := by
  obtain ⟨t1, h1, e1, e2, e3, e4, -⟩ := Sweep.C61_merge hV h (close cfg.eps s)
  obtain rfl : t1 = t' := by rw [hm] at h1; simpa using h1.symm
  have hp : ∀ x, Path.pt t1 x = Path.pt t x := by intro x; unfold Path.pt; rw [e3, e2]
  unfold layoutInput
  simp only [e1, e4, hp]

/-- C85: what the sweep returns can always be laid out: every output segment gets a path from its start to its end that stays between their heights. -/
theorem C85_layout (ha : Arena s tags) (he : 0 < cfg.eps) (hsolve : Geom.FindsRoots cfg.solve) (hV : (env cfg s).Valid (contribution single tags) fuel2)
    (h : fromSegments cfg single s tags fuel2 fuel = some t') (again : Nat → Nat → Bool) :
    ∃ N pos, (∀ n ≥ N, layout cfg again s t' n = some pos) ∧ ∀ i < t'.n,
      (pos i).start = Path.pt t' ⟨i, true⟩ ∧ (pos i).stop = Path.pt t' ⟨i, false⟩ ∧ (pos i).els ≠ [] ∧
      ∀ e ∈ (pos i).els, (Path.pt t' ⟨i, true⟩).y ≤ e.stop.y ∧ e.stop.y ≤ (Path.pt t' ⟨i, false⟩).y := by
  obtain ⟨t, h1, h2⟩ := fromSegments_ok h
  obtain ⟨m, hm, ok⟩ := layout_ok ha he hsolve hV h1 again
  obtain ⟨H, hr, _⟩ := Sweep.driver_run hV h1
  have hm' : Scan.buildScanLineOrders t' = some m := by rw [Scan.C57_merged hV.neg hr _ h2, hm]
  rw [← layoutInput_merged hV h1 h2 again m] at ok
  obtain ⟨N, out, k1, k2⟩ := Pos.C39_layout ok
  refine ⟨N, out, ?_, fun i hi => ?_⟩
  · intro n hn
    unfold layout
    rw [hm']
    exact k1 n hn
  · obtain ⟨g1, g2, g3, g4, -⟩ := k2 i hi
    exact ⟨g1, g2, g3, g4⟩

/-- The path of a straight segment. -/
def straight (I : Pos.Input) (i : Nat) : Pos.OPath := ⟨I.first i, [.line (I.second i)], some 0⟩

/-- If all segments are straight, all paths are. -/
theorem straight_layout {I : Pos.Input} (ok : I.Ok) (hl : ∀ i < I.n, Pos.isLine (I.seg i) = true) :
    ∃ N out, (∀ n ≥ N, Pos.computePositions I n = some out) ∧ ∀ i < I.n, out i = straight I i := by
  obtain ⟨N, s, h1, h2, h3⟩ := Pos.mainLoop_total ok (fun s => s.out = Pos.initPath I) (by
    intro s e q hs hp hq
    refine ⟨fun _ => hp, ?_⟩
    intro _ y1 nbrs s' hm hg heff _ _
    generalize s'.out = o' at heff
    cases heff with
    | nothing _ => exact hp
    | strips h0 h1 ss hs ok _ hh =>
      exact absurd (Or.inl fun o ho => (Pos.isLine_iff _).1 (hl o (hg.alive o ho).1)) h1) _ (Pos.initState I) le_rfl (Pos.initState_inv ok) rfl
  refine ⟨N, fun o => Pos.finish I o (s.out o), ?_, ?_⟩
  · intro n hn
    rw [Pos.computePositions, h1 n hn]
    rfl
  · intro i hi
    have hd := ok.down i hi
    simp only [h3]
    rcases hd.lt_or_eq with hlt | heq
    · rw [Pos.finish_initPath I i hlt]
      unfold Pos.copyEl
      rw [if_pos (hl i hi)]
      rfl
    · rw [Pos.initPath, if_pos heq, Pos.finish, if_neg (by simp [Pos.OPath.stop, Pos.El.stop])]
      rfl

end Verif.Full
