import Verif.Full.Result
import Verif.Sweep.Apart

/-! # Coincident segments are neighbours to the end -/

namespace Verif.Full
open Verif.Segs (Segments)
open Verif.Merge (EndAdjacent Coincident)
set_option linter.unusedSectionVars false

variable {T W : Type} [AddCommGroup W] [DecidableEq W]
variable {cfg : Cfg} {s : Segments ℝ} {tags : List T} {single : T → Bool → W} {fuel2 fuel : Nat} {t t' : Topo.Topo ℝ W}

theorem env_boxed (h : Arena s tags) (he : 0 ≤ cfg.eps) : (env cfg s).Boxed := by
  intro x hx hh
  have hd := h.down (cfg := cfg) ((mem_segs h x).1 hx) hh
  have hle : (segAt s x).start.y ≤ (segAt s x).stop.y := by
    cases hg : segAt s x with
    | line p0 p1 => rw [hg] at hd; exact le_of_lt hd
    | cubic c => rw [hg] at hd; exact hd.1.le
  obtain ⟨b1, b2⟩ := Geom.C42_bracket _ hd (segAt s x).start.y cfg.eps _ he (by simpa using he) le_rfl hle
  rw [(Geom.C42_ends _ hd).1] at b1 b2
  change (segAt s x).lower (segAt s x).start.y cfg.eps - cfg.eps ≤ (segAt s x).start.x ∧ (segAt s x).start.x ≤ (segAt s x).upper (segAt s x).start.y cfg.eps + cfg.eps
  constructor <;> linarith

/-- Between two output segments that are going to be merged no other segment starts. -/
theorem none_below (ha : Arena s tags) (he : 0 < cfg.eps) (hV : (env cfg s).Valid (contribution single tags) fuel2)
    (h : sweep cfg single s tags fuel2 fuel = some t) : Merge.NoneBelow (close cfg.eps s) t := by
  obtain ⟨F, f1, f2, f3, -⟩ := Sweep.fromSegments_lines hV.sched hV.exact hV.pp hV.contours hV.ord h
  subst f2
  refine f3.noneBelow hV.neg (env_boxed ha he.le) f1 ?_
  intro c i y p q hi hco hr h1 h2 hlt
  have hc : c < F.t.n := ((Sweep.C61_winding hV h).2.2 i hi).1 c hco.west |>.trans hi
  obtain ⟨p', q', hr', -, hcl⟩ := hco.close
  obtain ⟨rfl, rfl⟩ : p = p' ∧ q = q' := by
    obtain ⟨a, b, k1, k2, k3, k4⟩ := hr'
    obtain ⟨e1, e2⟩ := Merge.runs_iff k1 k2 k3 k4 hr
    exact ⟨e1, e2⟩
  have hrc := coincident_heights hco hr
  obtain ⟨i0, i1, _⟩ := runs_within hV h hi hr
  obtain ⟨c0, c1, _⟩ := runs_within hV h hc hrc
  have down : ∀ j < F.t.n, (segAt s (F.t.origSeg j)).start.y < (segAt s (F.t.origSeg j)).stop.y → (segAt s (F.t.origSeg j)).Down := by
    intro j hj hs
    have hm := (mem_segs (cfg := cfg) ha _).1 ((Sweep.C61_rings hV h).1 j hj)
    refine ha.down (cfg := cfg) hm ?_
    unfold Sweep.Env.isHorizontal
    rw [decide_eq_false_iff_not]
    exact hs.ne
  have di := down i hi (by linarith)
  have dc := down c hc (by linarith)
  obtain ⟨y', y1, y2, y3, y4⟩ := close_near he.le hcl di dc i0 i1 c0 c1 h1 h2.le
  have b1 := (Geom.C42_bracket _ dc y cfg.eps y' he.le y1 (by linarith) (by linarith)).2
  have b2 := (Geom.C42_bracket _ di y cfg.eps y he.le (by simpa using he.le) (by linarith) (by linarith)).1
  change (segAt s (F.t.origSeg c)).upper y cfg.eps + cfg.eps < (segAt s (F.t.origSeg i)).lower y cfg.eps - cfg.eps at hlt
  rw [abs_le] at y4
  linarith

/-- Merging is safe: segments that are going to be merged are neighbours at the point where they end. -/
theorem end_adjacent (ha : Arena s tags) (he : 0 < cfg.eps) (hV : (env cfg s).Valid (contribution single tags) fuel2)
    (h : sweep cfg single s tags fuel2 fuel = some t) : EndAdjacent (close cfg.eps s) t := by
  obtain ⟨H, hr, -⟩ := Sweep.driver_run hV h
  exact Merge.endAdjacent_below hV.neg hr (none_below ha he hV h)

end Verif.Full
