import Verif.Full.LineFree
import Verif.Full.OutlineExample

/-!
# C96: any number of paths, any winding number, any choice of what is inside

`Topology::from_paths` takes any number of tagged paths and any type of winding numbers, and `contours` any predicate on them; the boolean operations are
one instance of that. Here the result is shown to be right for all instances, in particular for `Topology::<i32>::from_path`, which takes one path.
-/

namespace Verif.Full
open Verif.Segs (Segments PathEl)
open Verif.Curve Verif.BinOp Verif.Merge

/-- The result of `from_paths` followed by `contours`: the segments, the topology and the contours; or `NonClosedPath`; or a panic (also: more steps
than allowed). -/
inductive Mapped (W : Type) where
  | ok (s : Segments ℝ) (t : Topo.Topo ℝ W) (cs : List Contours.Contour)
  | err (start stop : Segs.Pt ℝ)
  | panic

variable {T W : Type} [AddCommGroup W] [DecidableEq W]

/-- topology.rs:475-537 (`from_paths`) followed by topology.rs:1131-1283 (`contours`). The number bounds the steps of the loops. -/
noncomputable def fromPaths (cfg : Cfg) (single : T → Bool → W) (inside : W → Bool) (ps : List (List (PathEl ℝ) × T)) (fuel : Nat) : Mapped W :=
  match buildPaths ps with
  | .err p q => .err p q
  | .panic => .panic
  | .ok s tags =>
    match fromSegments cfg single s tags fuel fuel with
    | none => .panic
    | some t =>
      match Contours.contours t inside fuel with
      | none => .panic
      | some cs => .ok s t cs

/-- topology.rs:105-117 (`impl WindingNumber for i32`: `single`). -/
def single1 (_ : Unit) (positive : Bool) : ℤ := if positive then 1 else -1

/-- topology.rs:1588-1593 (`Topology::<i32>::from_path`) followed by `contours`. -/
noncomputable def fromPath (cfg : Cfg) (inside : ℤ → Bool) (p : List (PathEl ℝ)) (fuel : Nat) : Mapped ℤ := fromPaths cfg single1 inside [(p, ())] fuel

variable {s : Segments ℝ} {tags : List T} {cfg : Cfg}

/-! ## Lemmas -/

/-- `result_winding` without the assumption that the outside is not inside. -/
theorem result_winding' {single : T → Bool → W} {fuel2 fuel : Nat} {t t' : Topo.Topo ℝ W} (ha : Arena s tags) (he : 0 < cfg.eps)
    (hV : (env cfg s).Valid (contribution single tags) fuel2)
    (h : sweep cfg single s tags fuel2 fuel = some t) (hadj : Merge.EndAdjacent (close cfg.eps s) t) (hm : Merge.mergeCoincident (close cfg.eps s) t = some t')
    (inside : W → Bool) {fuel3 : Nat} {cs : List Contours.Contour} (hcs : Contours.contours t' inside fuel3 = some cs) {x z : ℝ} {w : W}
    (hx : ∀ a < s.len, (segAt s a).start.y ≤ z → z < (segAt s a).stop.y → Clear cfg.eps s x z a) {m : Scan.Maps ℝ} {l1 l2 : List Nat}
    (hg : GapAt s t m x z w l1 l2) : windContours s t' cs x z = (if inside w then 1 else 0) - (if inside 0 then 1 else 0) := by
  obtain ⟨H, hr, _⟩ := Sweep.driver_run hV h
  have hcons := Merge.C26_consistent hV.neg hr hadj hm
  obtain ⟨t2, e2, hn, hpts, hpi, horig, hscan, _⟩ := Sweep.C61_merge hV h (close cfg.eps s)
  obtain rfl : t2 = t' := by rw [hm] at e2; simpa using e2.symm
  have hl : ∀ i, LeftAt s t2 x z i ↔ LeftAt s t x z i := by
    intro i
    unfold LeftAt Scan.AliveAt Topo.Runs
    rw [hn, hpts, hpi, horig]
  have hl' : LeftAt s t2 x z = LeftAt s t x z := by funext i; exact propext (hl i)
  have hperm := Contours.C27_partition t2 inside hcons fuel3 cs hcs
  unfold windContours
  rw [hl', signedCount_eq hperm (fun C hC x hx => Contours.C51_left t2 inside hcons fuel3 cs hcs C hC x hx), hn,
    merged_total hV.neg hr hadj hm (LeftAt s t x z) ?_ ?_ (ind inside), gap_total hg (ind inside)]
  · simp [ind]
  · rintro i hi ⟨⟨_, p, q, h1, h2, h3⟩, _⟩ ⟨p', q', h4, h5⟩
    obtain ⟨a, b, k1, k2, k3, k4⟩ := h1
    obtain ⟨rfl, rfl⟩ := Merge.runs_iff k1 k2 k3 k4 h4
    rw [h5] at h2
    exact absurd h2 (not_le.2 h3)
  · intro c i hi hco
    exact coincident_same_side ha he hV h hx hi hco

/-- Everything returns, and the winding numbers of the contours. -/
theorem general_contours {ps : List (List (PathEl ℝ) × T)} (single : T → Bool → W) (hn : ∀ t b, single t (!b) = - single t b) (inside : W → Bool)
    (he : 0 < cfg.eps) (hpp : Searches cfg.pp) (hsolve : Geom.FindsRoots cfg.solve) (hf : OneFirst cfg.first) (hb : buildPaths ps = .ok s tags)
    (hG : General cfg s) :
    ∃ N t t' cs, (∀ fuel, N ≤ fuel → fromPaths cfg single inside ps fuel = .ok s t' cs) ∧ (env cfg s).Valid (contribution single tags) N ∧
      sweep cfg single s tags N N = some t ∧ mergeCoincident (close cfg.eps s) t = some t' ∧ Contours.contours t' inside (2 * t'.n + 1) = some cs ∧
      ∀ x z, Away cfg s x z → Beside cfg s x z → windContours s t' cs x z =
        (if inside (ps.map fun p => windPath p.1 x z • single p.2 true).sum then 1 else 0) - (if inside 0 then 1 else 0) := by
  have h := buildPaths_arena hb
  obtain ⟨N0, t, ht⟩ := general_returns h he hpp hsolve hf hG single hn
  have hV0 := env_valid h he hpp single hn (general_order h he hpp hsolve hf hG N0)
  have ht0 := ht N0 le_rfl
  obtain ⟨t', hm, -⟩ := Sweep.C61_merge hV0 ht0 (close cfg.eps s)
  obtain ⟨N, hN⟩ : ∃ N, N = max N0 (2 * t'.n + 1) := ⟨_, rfl⟩
  have hV := env_valid h he hpp single hn (general_order h he hpp hsolve hf hG N)
  have ht1 := ht N (by omega)
  obtain ⟨H, hr, _⟩ := Sweep.driver_run hV ht1
  have hcons := Merge.C26_consistent hV.neg hr (end_adjacent h he hV ht1) hm
  obtain ⟨cs, hcs⟩ := Contours.C27_terminates t' inside hcons
  refine ⟨N, t, t', cs, ?_, hV, ht1, hm, hcs _ (Nat.lt_succ_self _), fun x z hx hB => ?_⟩
  · intro fuel hf
    unfold fromPaths fromSegments
    rw [hb]
    dsimp only
    rw [ht fuel (by omega)]
    dsimp only
    rw [hm]
    dsimp only
    rw [hcs fuel (by omega)]
  · obtain ⟨m, -, H'⟩ := gap_general h he hpp hsolve hf hn hG ht1
    obtain ⟨l1, l2, hg⟩ := H' x z hB
    rw [windArena_paths (cfg := cfg) hb single hn x z] at hg
    exact result_winding' h he hV ht1 (end_adjacent h he hV ht1) hm inside (hcs _ (Nat.lt_succ_self _)) hx hg

/-! ## Theorems -/

/-- **C96.** For paths in general position `from_paths` and `contours` return, and the contours go around the region that the predicate selects: once around
the points with a selected winding number if the number of the outside is not selected, and once, the other way, around the points with a number that is
not selected if it is. -/
theorem C96_paths {ps : List (List (PathEl ℝ) × T)} (single : T → Bool → W) (hn : ∀ t b, single t (!b) = - single t b) (inside : W → Bool)
    (he : 0 < cfg.eps) (hpp : Searches cfg.pp) (hsolve : Geom.FindsRoots cfg.solve) (hf : OneFirst cfg.first) (hb : buildPaths ps = .ok s tags)
    (hG : General cfg s) :
    ∃ N t' cs, (∀ fuel, N ≤ fuel → fromPaths cfg single inside ps fuel = .ok s t' cs) ∧ ∀ x z, Away cfg s x z → Beside cfg s x z →
      windContours s t' cs x z =
        (if inside (ps.map fun p => windPath p.1 x z • single p.2 true).sum then 1 else 0) - (if inside 0 then 1 else 0) := by
  obtain ⟨N, t, t', cs, h1, -, -, -, -, h2⟩ := general_contours single hn inside he hpp hsolve hf hb hG
  exact ⟨N, t', cs, h1, h2⟩

/-- Several tagged shapes, each consisting of polygons, drawn as paths. -/
def drawn (shapes : List (List (List (Segs.Pt ℝ)) × T)) : List (List (PathEl ℝ) × T) := shapes.map fun p => (outlines p.1, p.2)

/-- All polygons of the shapes. -/
def polygons (shapes : List (List (List (Segs.Pt ℝ)) × T)) : List (List (Segs.Pt ℝ)) := shapes.flatMap Prod.fst

theorem addPaths_drawn (shapes : List (List (List (Segs.Pt ℝ)) × T)) (h : Proper (polygons shapes)) : ∀ {s : Segments ℝ} (tags : List T), Segs.Lens s →
    ∃ tags', addPaths s tags (drawn shapes) = .ok ((polygons shapes).foldl (Segments.addPolylineRaw 0 1) s) tags' := by
  induction shapes with
  | nil => intro s tags _; exact ⟨tags, rfl⟩
  | cons p shapes ih =>
    intro s tags hs
    have hp : Proper p.1 := fun ps hps => h ps (by simp only [polygons, List.flatMap_cons]; exact List.mem_append_left _ hps)
    have hq : Proper (polygons shapes) := fun ps hps => h ps (by simp only [polygons, List.flatMap_cons]; exact List.mem_append_right _ hps)
    obtain ⟨r1, -, -⟩ := Segs.raws_refines (K := ℝ) 0 1 p.1 s hs
    obtain ⟨tags', h'⟩ := ih hq (resize tags (p.1.foldl (Segments.addPolylineRaw 0 1) s).len p.2) (r1.lens hs)
    refine ⟨tags', ?_⟩
    unfold drawn at h' ⊢
    rw [List.map_cons, addPaths, addSubpaths_outlines p.1 hp hs]
    dsimp only
    rw [h']
    simp [polygons, List.foldl_append]

theorem build_drawn {shapes : List (List (List (Segs.Pt ℝ)) × T)} (h : Proper (polygons shapes)) :
    ∃ tags, buildPaths (drawn shapes) = .ok (buildPolylines (polygons shapes) []).1 tags := by
  obtain ⟨tags, h1⟩ := addPaths_drawn shapes h [] Segs.lens_empty
  obtain ⟨tags2, h2⟩ := addPaths_drawn [(polygons shapes, true), (([] : List (List (Segs.Pt ℝ))), false)] (by simpa [polygons] using h) [] Segs.lens_empty
  have h3 := build_outlines (as := polygons shapes) (bs := []) h (by intro ps hps; simp at hps)
  refine ⟨tags, ?_⟩
  have e : drawn [(polygons shapes, true), (([] : List (List (Segs.Pt ℝ))), false)] = tagged (outlines (polygons shapes)) (outlines []) := rfl
  rw [e] at h2
  unfold buildPaths at h3 ⊢
  rw [h2] at h3
  rw [h1]
  simp only [Built.ok.injEq] at h3 ⊢
  rw [← h3.1]
  simp [polygons]

theorem fromPaths_free {ps : List (List (PathEl ℝ) × T)} (hb : buildPaths ps = .ok s tags) (h : AllLines s) (solve : ℝ → ℝ → ℝ → ℝ → List ℝ)
    (single : T → Bool → W) (inside : W → Bool) (fuel : Nat) : fromPaths (cfg.using solve) single inside ps fuel = fromPaths cfg single inside ps fuel := by
  unfold fromPaths
  rw [hb]
  dsimp only
  unfold fromSegments sweep
  rw [env_free h solve]
  rfl

/-- topology.rs:1131-1283 (`contours`): what is returned after the contours have been found, as in `Outcome.draw`. -/
noncomputable def Mapped.draw (cfg : Cfg) (again : Nat → Nat → Bool) (fuel : Nat) : Mapped W → Result
  | .err a b => .err a b
  | .panic => .panic
  | .ok s t cs =>
    match layout cfg again s t fuel with
    | none => .panic
    | some pos =>
      match drawContours s t pos cs with
      | none => .panic
      | some l => .ok l

/-- The winding number of the shapes around the point `(x, z)`: each shape contributes as often as its polygons go around the point. -/
noncomputable def number (single : T → Bool → W) (shapes : List (List (List (Segs.Pt ℝ)) × T)) (x z : ℝ) : W :=
  (shapes.map fun p => (p.1.map fun ps => windPolyline ps x z).sum • single p.2 true).sum

/-- What should be returned: closed polygons with edges near the edges of the input, nested as a forest (a contour without a parent is outer; the parent of a
contour comes earlier and has the opposite flag), that wind once around the points of the region and not at all around other points. -/
structure RightRegion (eps : ℝ) (pss : List (List (Segs.Pt ℝ))) (region : ℝ → ℝ → Prop) (out : List OutContour) : Prop where
  polygon : ∀ c ∈ out, ∃ es, Drawn c.path es ∧ ∀ e ∈ es, NearOne eps pss e
  top : ∀ (i : Nat) (c : OutContour), out[i]? = some c → c.parent = none → c.outer = true
  tree : ∀ (i : Nat) (c : OutContour) (p : Nat), out[i]? = some c → c.parent = some p → p < i ∧ ∃ d : OutContour, out[p]? = some d ∧ c.outer = !d.outer
  winding : ∀ x z, Distant eps pss x z → (region x z → windOut out x z = 1) ∧ (¬ region x z → windOut out x z = 0)

theorem drawn_number {shapes : List (List (List (Segs.Pt ℝ)) × T)} (hp : Proper (polygons shapes)) (single : T → Bool → W) (x z : ℝ) :
    ((drawn shapes).map fun p => windPath p.1 x z • single p.2 true).sum = number single shapes x z := by
  unfold drawn number
  rw [List.map_map]
  congr 1
  refine List.map_congr_left fun p hpm => ?_
  simp only [Function.comp]
  rw [wind_outlines fun ps hps => hp ps (List.mem_flatMap.2 ⟨p, hpm, hps⟩)]

/-- **C96.** For any number of tagged shapes made of polygons in general position, any winding number and any predicate, with any root finder: the contours
go around the region that the predicate selects. -/
theorem C96_polygons {shapes : List (List (List (Segs.Pt ℝ)) × T)} (single : T → Bool → W) (hn : ∀ t b, single t (!b) = - single t b) (inside : W → Bool)
    (he : 0 < cfg.eps) (hpp : Searches cfg.pp) (hf : OneFirst cfg.first) (hp : Proper (polygons shapes))
    (hP : LoosePolygons cfg.eps (polygons shapes)) :
    ∃ N s t' cs, (∀ fuel, N ≤ fuel → fromPaths cfg single inside (drawn shapes) fuel = .ok s t' cs) ∧ ∀ x z, OffEdges cfg.eps (polygons shapes) x z →
      windContours s t' cs x z = (if inside (number single shapes x z) then 1 else 0) - (if inside 0 then 1 else 0) := by
  obtain ⟨tags, hb⟩ := build_drawn hp
  obtain ⟨ideal, hid⟩ := Geom.findsRoots_exists
  have hP' : LoosePolygons (cfg.using ideal).eps (polygons shapes ++ []) := by rw [List.append_nil]; exact hP
  have ha := buildPolylines_arena (polygons shapes) []
  obtain ⟨N, t', cs, h1, h2⟩ := C96_paths (cfg := cfg.using ideal) single hn inside he hpp hid hf hb (general_of_loose ha he hid hf hP'.loose)
  refine ⟨N, (buildPolylines (polygons shapes) []).1, t', cs, fun fuel hfu => ?_, fun x z hx => ?_⟩
  · rw [← fromPaths_free hb (lines_polylines _ _) ideal]
    exact h1 fuel hfu
  · have ho : Off (cfg.using ideal).eps (buildPolylines (polygons shapes) []).1 x z := fun i hi => hx i _ (by simpa using has_edge hi)
    rw [h2 x z (ho.away he) (Off.beside (cfg := cfg.using ideal) ha he hid hf hP'.loose ho), drawn_number hp]

/-- **C96.** The same for the returned paths, if the outside is not selected: they are closed polygons near the edges of the input, nested as a forest, that
wind once around the points whose winding number is selected, and not around the others. -/
theorem C96_returned {shapes : List (List (List (Segs.Pt ℝ)) × T)} (again : Nat → Nat → Bool) (single : T → Bool → W)
    (hn : ∀ t b, single t (!b) = - single t b) (inside : W → Bool) (h0 : inside 0 = false)
    (he : 0 < cfg.eps) (hpp : Searches cfg.pp) (hf : OneFirst cfg.first) (hp : Proper (polygons shapes))
    (hP : LoosePolygons cfg.eps (polygons shapes)) (hB : BeyondCorners cfg (polygons shapes)) :
    ∃ N out, (∀ fuel, N ≤ fuel → (fromPaths cfg single inside (drawn shapes) fuel).draw cfg again fuel = .ok out) ∧
      RightRegion cfg.eps (polygons shapes) (fun x z => inside (number single shapes x z) = true) out := by
  obtain ⟨tags, hb⟩ := build_drawn hp
  obtain ⟨ideal, hid⟩ := Geom.findsRoots_exists
  obtain ⟨c, hc⟩ : ∃ c, c = cfg.using ideal := ⟨_, rfl⟩
  have hce : c.eps = cfg.eps := by rw [hc]; rfl
  have hcs : Geom.FindsRoots c.solve := by rw [hc]; exact hid
  have hcp : Searches c.pp := by rw [hc]; exact hpp
  have hcf : OneFirst c.first := by rw [hc]; exact hf
  have hce0 : 0 < c.eps := by rw [hce]; exact he
  have hP' : LoosePolygons c.eps (polygons shapes ++ []) := by rw [List.append_nil, hce]; exact hP
  have hB' : BeyondCorners c (polygons shapes ++ []) := by rw [List.append_nil, hc]; exact hB
  have ha := buildPaths_arena hb
  have hL := hP'.loose
  have hG := general_of_loose ha hce0 hcs hcf hL
  obtain ⟨N, t, t', cs, h1, hV, h2, h3, h4, h5⟩ := general_contours (cfg := c) single hn inside hce0 hcp hcs hcf hb hG
  have hacc := sweep_accurate ha hce0 hV (env_tidy_general ha hce0 hcp hcs hcf hG
    (fun i j t hne _ hb => (blurred_meet ha hce0 hcs hcf hL.line hL.moderate hL.upright hne hb).touching hce0) (beyond_corners hB') N) h2 h3
  obtain ⟨M, out, d1, d2, d3, d4, d5⟩ := draw_any again hce0 hcs ha hV h2 h3 h4 hacc
  rw [List.append_nil, hce] at d2 d5
  refine ⟨max N M, out, fun fuel hfu => ?_, d2, d3, d4, fun x z hx => ?_⟩
  · obtain ⟨pos, p1, p2⟩ := d1 fuel (by omega)
    rw [hc, layout_free (lines_polylines _ _)] at p1
    rw [← fromPaths_free hb (lines_polylines _ _) ideal, ← hc, h1 fuel (by omega)]
    simp only [Mapped.draw, p1, p2]
  · have ho : Off c.eps (buildPolylines (polygons shapes) []).1 x z := Distant.off hce0 (by rw [List.append_nil, hce]; exact hx)
    rw [d5 x z hx, h5 x z (ho.away hce0) (ho.beside ha hce0 hcs hcf hL), drawn_number hp, h0]
    constructor <;> intro h <;> simp [h]

/-- **C96.** One path made of polygons in general position, with integers as winding numbers (`Topology::<i32>::from_path`). -/
theorem C96_single {pss : List (List (Segs.Pt ℝ))} (again : Nat → Nat → Bool) (inside : ℤ → Bool) (h0 : inside 0 = false) (he : 0 < cfg.eps)
    (hpp : Searches cfg.pp) (hf : OneFirst cfg.first) (hp : Proper pss) (hP : LoosePolygons cfg.eps pss) (hB : BeyondCorners cfg pss) :
    ∃ N out, (∀ fuel, N ≤ fuel → (fromPath cfg inside (outlines pss) fuel).draw cfg again fuel = .ok out) ∧
      RightRegion cfg.eps pss (fun x z => inside (pss.map fun ps => windPolyline ps x z).sum = true) out := by
  have hs : ∀ (t : Unit) (b : Bool), single1 t (!b) = - single1 t b := by intro t b; cases b <;> simp [single1]
  have e : polygons [(pss, ())] = pss := by simp [polygons]
  have e' : ∀ x z, number single1 [(pss, ())] x z = (pss.map fun ps => windPolyline ps x z).sum := by intro x z; simp [number, single1]
  obtain ⟨N, out, h1, h2⟩ := C96_returned (cfg := cfg) (shapes := [(pss, ())]) again single1 hs inside h0 he hpp hf (by rw [e]; exact hp) (by rw [e]; exact hP)
    (by rw [e]; exact hB)
  rw [e] at h2
  simp only [e'] at h2
  exact ⟨N, out, h1, h2⟩

/-! ## Non-vacuity -/

theorem Cross.distant_middle {z : ℝ} (hz : z = 2 ∨ z = 7) : Distant (1 / 100) [Cross.up, Cross.upsideDown] 0 z := by
  refine Cross.distant fun ps hps e he v v0 v1 => ?_
  simp only [List.mem_cons, List.not_mem_nil, or_false] at hps
  rintro ⟨a1, a2⟩
  rw [abs_le] at a1 a2
  rcases hps with rfl | rfl
  all_goals
    simp [Segs.closedEdges, Cross.up, Cross.upsideDown, List.mem_cons] at he
    rcases he with rfl | rfl | rfl <;> dsimp only at a1 a2 <;> rcases hz with rfl | rfl <;> linarith [a1.1, a1.2, a2.1, a2.2]

theorem Cross.proper_both : Proper [Cross.up, Cross.upsideDown] := by
  intro ps hps
  rcases List.mem_cons.1 hps with rfl | hps
  · exact Cross.proper_up _ (by simp)
  · exact Cross.proper_down ps hps

/-- Two triangles that cross, as one path, with the root finder of the code (C92). With "exactly two" as the predicate, the contours enclose the part where the
triangles overlap: they wind around `(0, 7)` and not around `(0, 2)`, which is inside the first one only. -/
theorem Cross.twice : ∃ sol, Geom.SolvesCubics sol ∧ ∃ N out,
    (∀ fuel, N ≤ fuel → (fromPath { Cross.cfg' with solve := Geom.solveUnit sol } (fun w => decide (w = 2 ∨ w = -2)) (outlines [Cross.up, Cross.upsideDown]) fuel).draw
      { Cross.cfg' with solve := Geom.solveUnit sol } (fun _ _ => true) fuel = .ok out) ∧
    windOut out 0 7 = 1 ∧ windOut out 0 2 = 0 := by
  obtain ⟨sol, hs⟩ := Geom.solvesCubics_exists
  refine ⟨sol, hs, ?_⟩
  obtain ⟨N, out, h1, h2⟩ := C96_single (cfg := { Cross.cfg' with solve := Geom.solveUnit sol }) (pss := [Cross.up, Cross.upsideDown]) (fun _ _ => true)
    (fun w => decide (w = 2 ∨ w = -2)) (by decide) (by norm_num [Cross.cfg', Cross.cfg]) Ex.searches Cross.oneFirst Cross.proper_both Cross.loose Cross.beyond
  refine ⟨N, out, h1, (h2.winding 0 7 (Cross.distant_middle (by simp))).1 ?_, (h2.winding 0 2 (Cross.distant_middle (by simp))).2 ?_⟩
  · simp only [List.map_cons, List.map_nil, List.sum_cons, List.sum_nil, Cross.up_wind, Cross.down_wind]
    norm_num
  · simp only [List.map_cons, List.map_nil, List.sum_cons, List.sum_nil, Cross.up_wind, Cross.down_wind]
    norm_num

/-- Three tags that are counted separately: the triangles have the tags `0` and `2`, and there is nothing with the tag `1`. The predicate selects the points with an odd
total, so the contours wind around `(0, 2)` and not around `(0, 7)`. -/
theorem Cross.three_tags : ∃ N out,
    (∀ fuel, N ≤ fuel → (fromPaths Cross.cfg' (fun (k : Fin 3) b => Pi.single k (if b then (1 : ℤ) else -1)) (fun w => decide ((w 0 + w 1 + w 2) % 2 ≠ 0))
      (drawn [([Cross.up], (0 : Fin 3)), ([], 1), ([Cross.upsideDown], 2)]) fuel).draw Cross.cfg' (fun _ _ => true) fuel = .ok out) ∧
    windOut out 0 7 = 0 ∧ windOut out 0 2 = 1 := by
  obtain ⟨N, out, h1, h2⟩ := C96_returned (cfg := Cross.cfg') (shapes := [([Cross.up], (0 : Fin 3)), ([], 1), ([Cross.upsideDown], 2)]) (fun _ _ => true)
    (fun (k : Fin 3) b => (Pi.single k (if b then (1 : ℤ) else -1) : Fin 3 → ℤ)) (by
      intro k b
      rw [← Pi.single_neg]
      cases b <;> simp) (fun w => decide ((w 0 + w 1 + w 2) % 2 ≠ 0)) (by simp) (by norm_num [Cross.cfg', Cross.cfg]) Ex.searches Cross.oneFirst
    Cross.proper_both Cross.loose Cross.beyond
  refine ⟨N, out, h1, (h2.winding 0 7 (Cross.distant_middle (by simp))).2 ?_, (h2.winding 0 2 (Cross.distant_middle (by simp))).1 ?_⟩
  · simp only [number, List.map_cons, List.map_nil, List.sum_cons, List.sum_nil, Cross.up_wind, Cross.down_wind]
    norm_num [Pi.single_apply]
    decide
  · simp only [number, List.map_cons, List.map_nil, List.sum_cons, List.sum_nil, Cross.up_wind, Cross.down_wind]
    norm_num [Pi.single_apply]
    decide

end Verif.Full
