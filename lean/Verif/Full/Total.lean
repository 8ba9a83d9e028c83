import Verif.Full.Props
import Verif.Full.Polygon
import Verif.Sweep.TotalPlanar
import Verif.Sweep.TotalMono

/-!
# The operations return

For every input the comparisons do what the sweep needs, so that nothing panics as long as the sweep line stays in order. For inputs that do
not cross, the operation returns.
-/

namespace Verif.Full
open Verif.Segs (Segments PathEl)
open Verif.Curve Verif.BinOp
set_option linter.unusedSectionVars false

variable {T W : Type} [AddCommGroup W] {s : Segments ℝ} {tags : List T} {cfg : Cfg}

/-- The comparisons of segments that have a height in common are well formed and right, for every input. -/
theorem env_comparable (h : Arena s tags) (he : 0 < cfg.eps) (hsolve : Geom.FindsRoots cfg.solve) : (env cfg s).Comparable := by
  have on : ∀ {a t}, (env cfg s).On t a → Slanted s a ∧ (segAt s a).Down ∧ (segAt s a).start.y ≤ t ∧ t ≤ (segAt s a).stop.y := by
    intro a t ha
    have := (tall_iff h a).1 ha.1
    exact ⟨this, this.down h, ha.2⟩
  have cmp : ∀ {a b t}, (env cfg s).On t a → (env cfg s).On t b → Compared (segAt s a) (segAt s b) ((env cfg s).cmp a b) := by
    intro a b t ha hb
    obtain ⟨_, a1, a2, a3⟩ := on ha
    obtain ⟨_, b1, b2, b3⟩ := on hb
    exact compare_spec hsolve (by linarith) (by linarith) he cfg.first (segAt s) a b a1 b1 ((max_le a2 b2).trans (le_min a3 b3))
  have cons : ∀ {a b t}, (env cfg s).On t a → (env cfg s).On t b → Compared (segAt s a) (segAt s b) ((env cfg s).cons a b) := by
    intro a b t ha hb
    obtain ⟨_, a1, a2, a3⟩ := on ha
    obtain ⟨_, b1, b2, b3⟩ := on hb
    exact compare_spec hsolve (by linarith) (by linarith) (by linarith) cfg.firstCons (segAt s) a b a1 b1 ((max_le a2 b2).trans (le_min a3 b3))
  constructor
  · intro a b t ha hb
    exact ⟨(cmp ha hb).wf, (cmp ha hb).start, (cmp ha hb).stop⟩
  · intro a b t ha hb hlt
    exact (cmp ha hb).strict hlt
  · intro a b t ha hb p hp ho z h1 h2
    exact ((cmp ha hb).right p hp z h1 h2).1 ho
  · intro a b t ha hb p hp ho z h1 h2
    exact ((cmp ha hb).right p hp z h1 h2).2 ho
  · intro a b t ha hb
    exact ⟨(cons ha hb).wf, (cons ha hb).stop⟩
  · intro a b hab
    change a ≤ (a + b) / 2 ∧ (a + b) / 2 ≤ b
    constructor <;> linarith

/-- Everything the sweep needs in order not to panic, if the line is in order. -/
theorem env_sane (h : Arena s tags) (he : 0 < cfg.eps) (hpp : Searches cfg.pp) (hsolve : Geom.FindsRoots cfg.solve) (single : T → Bool → W)
    (hn : ∀ t b, single t (!b) = - single t b) {fuel : Nat} (ho : (env cfg s).Ordered fuel) : (env cfg s).Sane (contribution single tags) fuel where
  sched := env_sched h
  exact := env_exact h
  pp := env_pp hpp
  contours := env_contours h single hn
  comparable := env_comparable h he hsolve
  ordered := ho
  neg := by
    intro i b
    unfold contribution
    cases tags[i]? with
    | none => simp
    | some t => exact hn t b

/-- If no two segments cross, the line is in order. -/
theorem planar_ordered (h : Arena s tags) (he : 0 < cfg.eps) (hpp : Searches cfg.pp) (hsolve : Geom.FindsRoots cfg.solve) (hN : NoCross s)
    (hR : Resolved cfg s) (single : T → Bool → W) (hn : ∀ t b, single t (!b) = - single t b) (fuel : Nat) : (env cfg s).Ordered fuel := by
  intro st w v hst hw hv
  have hP := env_planar (cfg := cfg) h he hsolve hN hR
  have hC := env_contours (cfg := cfg) h single hn
  have hK := env_comparable (cfg := cfg) h he hsolve
  obtain ⟨yl, hI, hg⟩ : ∃ yl, Sweep.Idle (env cfg s) yl st ∧ (Sweep.newSegs st.line).Pairwise (fun a b => ¬ (env cfg s).Lt b a) ∧
      Sweep.Touching (env cfg s) st.ints := by
    rcases hst with rfl | hr
    · refine ⟨⊥, Sweep.Idle.init _, List.Pairwise.nil, ?_⟩
      intro ev hev; simp [Sweep.State.new] at hev
    · have hg := Sweep.Reached.good (env_sched h) (env_pp hpp) hP hr
      refine ⟨st.y, ?_, hg.1.sublist (Sweep.newSegs_sublist _), hg.2⟩
      clear hw hg
      induction hr with
      | first s' hl => exact ((Sweep.Idle.init _).next hC (env_sched h) hK (env_pp hpp) hl).2.2
      | next s1 s2 _ hl ih => exact (ih.next hC (env_sched h) hK (env_pp hpp) hl).2.2
  cases hy : Sweep.nextY (env cfg s) st with
  | none => unfold Sweep.beforeInts at hw; rw [hy] at hw; simp at hw
  | some y =>
    obtain ⟨w', k1, hRd⟩ := Sweep.beforeInts_total hC (env_sched h) hK (env_pp hpp) hI.between hI.snp hy
    rw [hw, Option.some.injEq] at k1
    subst k1
    have hG := Sweep.beforeInts_good (env_sched h) (env_pp hpp) hP hI.between hy hw hg
    obtain ⟨hG', -⟩ := Sweep.intLoop_good hP fuel hG hRd.hold hv
    rw [hG.y_eq]
    have hs' : (v.line.map Sweep.Entry.seg).Pairwise (fun a b => ¬ (env cfg s).Lt b a) := by
      have := hG'.sorted
      unfold Sweep.Sorted at this
      rw [← List.pairwise_map (f := Sweep.Entry.seg) (R := fun a b => ¬ (env cfg s).Lt b a)] at this
      exact this
    have hon : ∀ a ∈ v.line.map Sweep.Entry.seg, (env cfg s).On y a := by
      intro a ha
      obtain ⟨e, he, rfl⟩ := List.mem_map.1 ha
      exact hG'.on e he
    refine ord_of_west h he ?_ fun _ => ?_
    · intro a ha
      have := hon a ha
      refine ⟨((tall_iff h a).1 this.1).1, ?_, this.2⟩
      unfold Sweep.Env.isHorizontal
      rw [decide_eq_false_iff_not]
      exact this.1.2.ne
    · refine hs'.imp_of_mem ?_
      intro a b ha hb hab
      obtain ⟨_, a1, a2⟩ := hon a ha
      obtain ⟨_, b1, b2⟩ := hon b hb
      have hle : (segAt s a).atY y ≤ (segAt s b).atY y := by
        by_contra hlt
        exact hab ⟨y, ⟨b1, b2⟩, ⟨a1, a2⟩, not_le.1 hlt⟩
      exact ⟨⟨y, by simpa using he.le, b1, b2, by linarith⟩, y, by simpa using he.le, a1, a2, by linarith⟩

/-- If no two segments cross, the sweep returns, and the result does not depend on the bounds if they are large enough. -/
theorem sweep_returns (h : Arena s tags) (he : 0 < cfg.eps) (hpp : Searches cfg.pp) (hsolve : Geom.FindsRoots cfg.solve) (hN : NoCross s)
    (hR : Resolved cfg s) (single : T → Bool → W) (hn : ∀ t b, single t (!b) = - single t b) :
    ∃ N t, ∀ fuel, N ≤ fuel → sweep cfg single s tags fuel fuel = some t := by
  let N := max ((env cfg s).heights.length + 1) ((env cfg s).segs.length * (env cfg s).segs.length + 1)
  have hS := env_sane h he hpp hsolve single hn (planar_ordered h he hpp hsolve hN hR single hn N)
  obtain ⟨t, ht⟩ := Sweep.fromSegments_planar hS (env_planar h he hsolve hN hR) (fuel := N) (by omega) (by omega)
  exact ⟨N, t, fun fuel hf => Sweep.fromSegments_mono hf hf ht⟩

/-- If no two segments cross, everything returns. -/
theorem finish_returns {tags : List Bool} (h : Arena s tags) (he : 0 < cfg.eps) (hpp : Searches cfg.pp) (hsolve : Geom.FindsRoots cfg.solve) (hN : NoCross s)
    (hR : Resolved cfg s) (rule : FillRule) (op : Op) : ∃ N t' cs, ∀ fuel, N ≤ fuel → finish cfg rule op s tags fuel = .ok s t' cs := by
  have hn := BinaryWinding.single_neg
  obtain ⟨N, t, ht⟩ := sweep_returns h he hpp hsolve hN hR BinaryWinding.single hn
  have hV := env_valid h he hpp BinaryWinding.single hn (planar_order h he hpp hsolve hN hR N)
  have ht0 := ht N le_rfl
  obtain ⟨t', hm, hrest⟩ := Sweep.C61_merge hV ht0 (close cfg.eps s)
  obtain ⟨H, hr, _⟩ := Sweep.driver_run hV ht0
  have hcons := Merge.C26_consistent hV.neg hr (end_adjacent h he hV ht0) hm
  obtain ⟨cs, hcs⟩ := Contours.C27_terminates t' (BinOp.inside rule op) hcons
  refine ⟨max N (2 * t'.n + 1), t', cs, ?_⟩
  intro fuel hf
  unfold finish fromSegments
  rw [ht fuel (by omega)]
  dsimp only
  rw [hm]
  dsimp only
  rw [hcs fuel (by omega)]

/-! ## C79: nothing panics -/

/-- C79: for any closed paths, if the sweep line stays in order the sweep returns; or else, on one line, after the entrances and exits of the line, it
handles intersections without coming to an end (within `fuel2` of them). No index is out of range, no segment is looked up in vain and no option is empty. -/
theorem C79_no_panic {ps : List (List (PathEl ℝ) × T)} (hb : buildPaths ps = .ok s tags) (he : 0 < cfg.eps) (hpp : Searches cfg.pp)
    (hsolve : Geom.FindsRoots cfg.solve) (single : T → Bool → W) (hn : ∀ t b, single t (!b) = - single t b) {fuel2 fuel : Nat}
    (ho : (env cfg s).Ordered fuel2) (hf : (env cfg s).heights.length < fuel) :
    (∃ t, sweep cfg single s tags fuel2 fuel = some t) ∨
      ∃ n st w, Sweep.Lines (env cfg s) fuel2 n (Sweep.State.new (env cfg s)) st ∧ Sweep.beforeInts (env cfg s) st = some w ∧ Sweep.Busy (env cfg s) fuel2 w :=
  Sweep.fromSegments_returns (env_sane (buildPaths_arena hb) he hpp hsolve single hn ho) hf

/-- C79: for any closed paths, whatever the order of the sweep line, the sweep comes to at most as many lines as there are heights where a segment starts
or ends or where the comparison of two segments changes or has the middle of a piece. -/
theorem C79_lines {ps : List (List (PathEl ℝ) × T)} (hb : buildPaths ps = .ok s tags) (he : 0 < cfg.eps) (hpp : Searches cfg.pp)
    (hsolve : Geom.FindsRoots cfg.solve) {fuel2 : Nat} {l : List (Sweep.State ℝ)}
    (h : Sweep.LineChain (env cfg s) fuel2 (Sweep.State.new (env cfg s)) l) : l.length ≤ (env cfg s).heights.length := by
  have ha := buildPaths_arena hb
  exact h.length_le (env_contours (cfg := cfg) (W := Int) ha (fun _ b => if b then 1 else -1) (by intro t b; cases b <;> rfl)) (env_sched ha)
    (env_comparable ha he hsolve) (env_pp hpp)

/-! ## C80: inputs that do not cross -/

/-- C80: a boolean operation on paths that do not cross themselves or each other returns, and what it returns is right. -/
theorem C80_paths {a b : List (PathEl ℝ)} {tags : List Bool} (he : 0 < cfg.eps) (hpp : Searches cfg.pp) (hsolve : Geom.FindsRoots cfg.solve)
    (hb : buildPaths (tagged a b) = .ok s tags) (hN : NoCross s) (hR : Resolved cfg s) (rule : FillRule) (op : Op) :
    ∃ N t' cs, (∀ fuel, N ≤ fuel → binaryOp cfg a b rule op fuel = .ok s t' cs) ∧ ∀ x z, Away cfg s x z →
      (Combine op (InShape rule (windPath a x z)) (InShape rule (windPath b x z)) → windContours s t' cs x z = 1) ∧
      (¬ Combine op (InShape rule (windPath a x z)) (InShape rule (windPath b x z)) → windContours s t' cs x z = 0) := by
  obtain ⟨N, t', cs, h⟩ := finish_returns (buildPaths_arena hb) he hpp hsolve hN hR rule op
  have h' : ∀ fuel, N ≤ fuel → binaryOp cfg a b rule op fuel = .ok s t' cs := by
    intro fuel hf
    unfold binaryOp
    rw [hb]
    exact h fuel hf
  exact ⟨N, t', cs, h', fun x z hx => C78_binary_op_planar he hpp hsolve (h' N le_rfl) hN hR hx⟩

/-- C80 for polygons whose edges do not cross and are clearly apart where they differ. -/
theorem C80_polygons {as bs : List (List (Segs.Pt ℝ))} (he : 0 < cfg.eps) (hpp : Searches cfg.pp) (hsolve : Geom.FindsRoots cfg.solve)
    (hP : Polygons cfg.eps (as ++ bs)) (rule : FillRule) (op : Op) :
    ∃ N t' cs, (∀ fuel, N ≤ fuel → polylineOp cfg as bs rule op fuel = .ok (buildPolylines as bs).1 t' cs) ∧
      ∀ x z, Away cfg (buildPolylines as bs).1 x z →
        (Combine op (InShape rule (as.map fun ps => windPolyline ps x z).sum) (InShape rule (bs.map fun ps => windPolyline ps x z).sum) →
          windContours (buildPolylines as bs).1 t' cs x z = 1) ∧
        (¬ Combine op (InShape rule (as.map fun ps => windPolyline ps x z).sum) (InShape rule (bs.map fun ps => windPolyline ps x z).sum) →
          windContours (buildPolylines as bs).1 t' cs x z = 0) := by
  obtain ⟨N, t', cs, h⟩ := finish_returns (buildPolylines_arena as bs) he hpp hsolve hP.nocross' (resolved_of_apart he hsolve hP.nocross' hP.apart) rule op
  exact ⟨N, t', cs, h, fun x z hx => C78_polygons he hpp hsolve hP (h N le_rfl) hx⟩

end Verif.Full
