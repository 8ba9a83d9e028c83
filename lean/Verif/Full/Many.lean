import Verif.Full.Generic
import Verif.Full.CurveExample

/-!
# C97: operations on any number of shapes

With one tag per shape and one counter per tag, `from_paths` and `contours` compute every boolean combination of any number of shapes at once. The boolean
operations on two paths are the case of two shapes. Negating the predicate turns the contours around.
-/

namespace Verif.Full
open Verif.Segs (Segments PathEl)
open Verif.Curve Verif.BinOp

variable {n : Nat} {cfg : Cfg}

/-- One counter per shape: an instance of topology.rs:20-50 (`WindingNumber`) as a user would write it. -/
def counter (k : Fin n) (positive : Bool) : Fin n → ℤ := Pi.single k (if positive then 1 else -1)

open Classical in
/-- The predicate for `contours`: `f` says, for every set of shapes, whether the points that are in exactly these shapes are wanted. -/
noncomputable def wanted (rule : FillRule) (f : (Fin n → Prop) → Prop) (w : Fin n → ℤ) : Bool := decide (f fun i => InShape rule (w i))

theorem counter_neg (k : Fin n) (b : Bool) : counter k (!b) = - counter k b := by
  unfold counter
  rw [← Pi.single_neg]
  cases b <;> simp

/-- The shapes, numbered. -/
def numbered (shapes : Fin n → List (List (Segs.Pt ℝ))) : List (List (List (Segs.Pt ℝ)) × Fin n) := List.ofFn fun i => (shapes i, i)

theorem sum_counter {n : Nat} (g : Fin n → ℤ) : (List.ofFn fun i => g i • counter i true).sum = g := by
  rw [List.sum_ofFn]
  funext j
  rw [Finset.sum_apply]
  simp [counter, Pi.single_apply]

theorem number_counter (shapes : Fin n → List (List (Segs.Pt ℝ))) (x z : ℝ) :
    number counter (numbered shapes) x z = fun i => ((shapes i).map fun ps => windPolyline ps x z).sum := by
  unfold number numbered
  rw [List.map_ofFn]
  exact sum_counter fun i => ((shapes i).map fun ps => windPolyline ps x z).sum

/-- The point is in shape `i`. -/
def InPolygons (rule : FillRule) (pss : List (List (Segs.Pt ℝ))) (x z : ℝ) : Prop := InShape rule (pss.map fun ps => windPolyline ps x z).sum

theorem not_inShape_zero (rule : FillRule) : ¬ InShape rule 0 := by cases rule <;> simp [InShape]

theorem wanted_zero {rule : FillRule} {f : (Fin n → Prop) → Prop} (h0 : ¬ f fun _ => False) : wanted rule f 0 = false := by
  unfold wanted
  rw [decide_eq_false_iff_not]
  have e : (fun i => InShape rule ((0 : Fin n → ℤ) i)) = fun _ => False := by
    funext i; simpa using not_inShape_zero rule
  rw [e]; exact h0

/-- **C97.** Every boolean combination `f` of any number of shapes that does not contain the points that are in none of them: for polygons in general position
the returned paths are closed polygons near the input, nested as a forest, that wind once around the points of the combination and not around the others. -/
theorem C97_polygons (shapes : Fin n → List (List (Segs.Pt ℝ))) (again : Nat → Nat → Bool) (rule : FillRule) (f : (Fin n → Prop) → Prop) (h0 : ¬ f fun _ => False)
    (he : 0 < cfg.eps) (hpp : Searches cfg.pp) (hf : OneFirst cfg.first) (hp : Proper (polygons (numbered shapes)))
    (hP : LoosePolygons cfg.eps (polygons (numbered shapes))) (hB : BeyondCorners cfg (polygons (numbered shapes))) :
    ∃ N out, (∀ fuel, N ≤ fuel → (fromPaths cfg counter (wanted rule f) (drawn (numbered shapes)) fuel).draw cfg again fuel = .ok out) ∧
      RightRegion cfg.eps (polygons (numbered shapes)) (fun x z => f fun i => InPolygons rule (shapes i) x z) out := by
  have hw : wanted rule f 0 = false := wanted_zero h0
  obtain ⟨N, out, h1, h2⟩ := C96_returned again counter counter_neg (wanted rule f) hw he hpp hf hp hP hB
  refine ⟨N, out, h1, h2.polygon, h2.top, h2.tree, fun x z hx => ?_⟩
  have := h2.winding x z hx
  simp only [number_counter, wanted, decide_eq_true_eq] at this
  exact this

/-- The same for paths with curves, numbered. -/
def numberedPaths (ps : Fin n → List (PathEl ℝ)) : List (List (PathEl ℝ) × Fin n) := List.ofFn fun i => (ps i, i)

theorem sum_numbered (ps : Fin n → List (PathEl ℝ)) (x z : ℝ) :
    ((numberedPaths ps).map fun p => windPath p.1 x z • counter p.2 true).sum = fun i => windPath (ps i) x z := by
  unfold numberedPaths
  rw [List.map_ofFn]
  exact sum_counter fun i => windPath (ps i) x z

/-- **C97.** The same for paths with curves in general position: the contours go once around the points of the combination and not around the others. -/
theorem C97_curves (ps : Fin n → List (PathEl ℝ)) {s : Segments ℝ} {tags : List (Fin n)} {ρ : Nat → ℝ} (rule : FillRule) (f : (Fin n → Prop) → Prop)
    (h0 : ¬ f fun _ => False) (he : 0 < cfg.eps) (hpp : Searches cfg.pp) (hsolve : Geom.FindsRoots cfg.solve) (hf : OneFirst cfg.first)
    (hb : buildPaths (numberedPaths ps) = .ok s tags) (hL : LooseCurves cfg.eps ρ s) :
    ∃ N t' cs, (∀ fuel, N ≤ fuel → fromPaths cfg counter (wanted rule f) (numberedPaths ps) fuel = .ok s t' cs) ∧ ∀ x z, OffCurves cfg.eps ρ s x z →
      ((f fun i => InShape rule (windPath (ps i) x z)) → windContours s t' cs x z = 1) ∧
      (¬ (f fun i => InShape rule (windPath (ps i) x z)) → windContours s t' cs x z = 0) := by
  have ha := buildPaths_arena hb
  have hw : wanted rule f 0 = false := wanted_zero h0
  obtain ⟨N, t', cs, h1, h2⟩ := C96_paths (cfg := cfg) counter counter_neg (wanted rule f) he hpp hsolve hf hb (general_of_curves ha he hsolve hf hL)
  refine ⟨N, t', cs, h1, fun x z hx => ?_⟩
  have := h2 x z (hx.away he fun i hi => (hL.gentle i hi).1) (hx.beside ha he hsolve hf hL)
  rw [sum_numbered, hw] at this
  rw [this]
  unfold wanted
  constructor <;> intro h <;> simp [h]

/-- **C97.** Negating the predicate gives contours that go around every point as often as before, in the other direction. -/
theorem C97_complement {T W : Type} [AddCommGroup W] [DecidableEq W] {ps : List (List (PathEl ℝ) × T)} {s : Segments ℝ} {tags : List T} (single : T → Bool → W)
    (hn : ∀ t b, single t (!b) = - single t b) (inside : W → Bool)
    (he : 0 < cfg.eps) (hpp : Searches cfg.pp) (hsolve : Geom.FindsRoots cfg.solve) (hf : OneFirst cfg.first) (hb : buildPaths ps = .ok s tags)
    (hG : General cfg s) :
    ∃ N t' cs t'' cs', (∀ fuel, N ≤ fuel → fromPaths cfg single inside ps fuel = .ok s t' cs ∧ fromPaths cfg single (fun w => !inside w) ps fuel = .ok s t'' cs') ∧
      ∀ x z, Away cfg s x z → Beside cfg s x z → windContours s t'' cs' x z = - windContours s t' cs x z := by
  obtain ⟨N, t', cs, h1, h2⟩ := C96_paths (cfg := cfg) single hn inside he hpp hsolve hf hb hG
  obtain ⟨N', t'', cs', h1', h2'⟩ := C96_paths (cfg := cfg) single hn (fun w => !inside w) he hpp hsolve hf hb hG
  refine ⟨max N N', t', cs, t'', cs', fun fuel h => ⟨h1 fuel (by omega), h1' fuel (by omega)⟩, fun x z hx hB => ?_⟩
  rw [h2 x z hx hB, h2' x z hx hB]
  cases inside 0 <;> cases inside (ps.map fun p => windPath p.1 x z • single p.2 true).sum <;> simp

/-- The result of an operation on two paths, as a result of `from_paths`. -/
def Outcome.mapped : Outcome → Mapped BinaryWinding
  | .ok s t cs => .ok s t cs
  | .err p q => .err p q
  | .panic => .panic

/-- **C97.** The boolean operations on two paths are an instance. -/
theorem C97_binary (a b : List (PathEl ℝ)) (rule : FillRule) (op : Op) (fuel : Nat) :
    (binaryOp cfg a b rule op fuel).mapped = fromPaths cfg BinaryWinding.single (BinOp.inside rule op) (tagged a b) fuel := by
  unfold binaryOp fromPaths
  cases buildPaths (tagged a b) with
  | err p q => rfl
  | panic => rfl
  | ok s tags =>
    dsimp only
    unfold finish
    cases fromSegments cfg BinaryWinding.single s tags fuel fuel with
    | none => rfl
    | some t =>
      dsimp only
      cases Contours.contours t (BinOp.inside rule op) fuel <;> rfl

/-! ## The segments do not depend on the tags -/

theorem addPaths_tags {T T' : Type} : ∀ {ps : List (List (PathEl ℝ) × T)} {ps' : List (List (PathEl ℝ) × T')} {s s' : Segments ℝ} {tags u : List T} (tags' : List T'),
    ps.map Prod.fst = ps'.map Prod.fst → addPaths s tags ps = .ok s' u → ∃ u', addPaths s tags' ps' = .ok s' u' := by
  intro ps
  induction ps with
  | nil =>
    intro ps' s s' tags u tags' hm h
    have : ps' = [] := by simpa using hm.symm
    subst this
    simp only [addPaths, Built.ok.injEq] at h ⊢
    exact ⟨tags', h.1, rfl⟩
  | cons p ps ih =>
    intro ps' s s' tags u tags' hm h
    cases ps' with
    | nil => simp at hm
    | cons p' ps' =>
      obtain ⟨a, t⟩ := p
      obtain ⟨a', t'⟩ := p'
      simp only [List.map_cons, List.cons.injEq] at hm
      obtain ⟨rfl, hm⟩ := hm
      simp only [addPaths] at h ⊢
      cases hs : s.addSubpaths 0 1 mono true (Segs.subpaths a) with
      | err x y z => rw [hs] at h; simp at h
      | panic => rw [hs] at h; simp at h
      | ok s1 =>
        rw [hs] at h
        exact ih _ hm h

theorem buildPaths_tags {T T' : Type} {ps : List (List (PathEl ℝ) × T)} {ps' : List (List (PathEl ℝ) × T')} {s : Segments ℝ} {u : List T}
    (hm : ps.map Prod.fst = ps'.map Prod.fst) (h : buildPaths ps = .ok s u) : ∃ u', buildPaths ps' = .ok s u' := by
  unfold buildPaths at h ⊢
  cases ha : addPaths Segments.empty [] ps with
  | err a b => rw [ha] at h; simp at h
  | panic => rw [ha] at h; simp at h
  | ok s1 u1 =>
    rw [ha] at h
    obtain ⟨u', hu⟩ := addPaths_tags (ps' := ps') [] hm ha
    rw [hu]
    simp only [Built.ok.injEq] at h ⊢
    exact ⟨u', h.1, rfl⟩

/-! ## Non-vacuity -/

/-- Three shapes: a triangle, nothing, and another triangle that crosses the first. -/
def Cross.three : Fin 3 → List (List (Segs.Pt ℝ)) := ![[Cross.up], [], [Cross.upsideDown]]

theorem Cross.three_polygons : polygons (numbered Cross.three) = [Cross.up, Cross.upsideDown] := by
  simp [polygons, numbered, Cross.three, List.ofFn_succ]

/-- The points that are in exactly one of three shapes (a triangle, nothing, and another triangle that crosses the first): the returned paths wind around `(0, 2)`,
which is in the first triangle only, and not around `(0, 7)`, which is in both. -/
theorem Cross.exactly_one : ∃ N out,
    (∀ fuel, N ≤ fuel → (fromPaths Cross.cfg' counter (wanted .nonZero fun P => ∃! i, P i) (drawn (numbered Cross.three)) fuel).draw Cross.cfg' (fun _ _ => true) fuel
      = .ok out) ∧ windOut out 0 2 = 1 ∧ windOut out 0 7 = 0 := by
  have e := Cross.three_polygons
  obtain ⟨N, out, h1, h2⟩ := C97_polygons (cfg := Cross.cfg') Cross.three (fun _ _ => true) .nonZero (fun P => ∃! i, P i) (by rintro ⟨i, h, -⟩; exact h)
    (by norm_num [Cross.cfg', Cross.cfg]) Ex.searches Cross.oneFirst (by rw [e]; exact Cross.proper_both) (by rw [e]; exact Cross.loose) (by rw [e]; exact Cross.beyond)
  rw [e] at h2
  have h02 : ∀ i : Fin 3, InPolygons .nonZero (Cross.three i) 0 2 ↔ i = 0 := by
    intro i
    fin_cases i <;> simp [InPolygons, InShape, Cross.three, Cross.up_wind, Cross.down_wind] <;> norm_num
  have h07 : ∀ i : Fin 3, InPolygons .nonZero (Cross.three i) 0 7 ↔ i ≠ 1 := by
    intro i
    fin_cases i <;> simp [InPolygons, InShape, Cross.three, Cross.up_wind, Cross.down_wind] <;> norm_num
  refine ⟨N, out, h1, (h2.winding 0 2 (Cross.distant_middle (by simp))).1 ?_, (h2.winding 0 7 (Cross.distant_middle (by simp))).2 ?_⟩
  · exact ⟨0, (h02 0).2 rfl, fun i hi => (h02 i).1 hi⟩
  · rintro ⟨i, -, hu⟩
    have := hu 0 ((h07 0).2 (by decide))
    have := hu 2 ((h07 2).2 (by decide))
    omega

/-- The two shapes bounded by curves of C87, as numbered shapes: the points that are in all of them. (`Bow.and_of_bows` shows points that are clear of these curves.) -/
theorem Bow.in_all : ∃ s tags N t' cs, buildPaths (tagged Bow.thin Bow.large) = .ok s tags ∧
    (∀ fuel, N ≤ fuel → fromPaths Cross.cfg counter (wanted .evenOdd fun P => ∀ i, P i) (numberedPaths ![Bow.thin, Bow.large]) fuel = .ok s t' cs) ∧
    ∀ x z, OffCurves (1 / 100) (fun _ => 1 / 5000) s x z →
      (InShape .evenOdd (windPath Bow.thin x z) ∧ InShape .evenOdd (windPath Bow.large x z) → windContours s t' cs x z = 1) ∧
      (¬ (InShape .evenOdd (windPath Bow.thin x z) ∧ InShape .evenOdd (windPath Bow.large x z)) → windContours s t' cs x z = 0) := by
  obtain ⟨s, tags, hb⟩ := Bow.built
  obtain ⟨u, hu⟩ := buildPaths_tags (ps' := numberedPaths ![Bow.thin, Bow.large]) (by simp [tagged, numberedPaths, List.ofFn_succ]) hb
  obtain ⟨N, t', cs, h1, h2⟩ := C97_curves (cfg := Cross.cfg) ![Bow.thin, Bow.large] .evenOdd (fun P => ∀ i, P i) (fun h => h 0) (by norm_num [Cross.cfg]) Ex.searches
    (Classical.choose_spec Geom.findsRoots_exists) Cross.oneFirst hu (Bow.loose hb)
  refine ⟨s, tags, N, t', cs, hb, h1, fun x z hx => ?_⟩
  have := h2 x z hx
  simpa [Fin.forall_fin_two] using this

end Verif.Full
