import Verif.Full.Many
import Verif.Full.CurvedExample

/-!
# C98: the returned paths for any number of paths with curves

C90 for any number of tagged paths, any winding number and any predicate.
-/

namespace Verif.Full
open Verif.Segs (Segments PathEl)
open Verif.Curve Verif.BinOp

/-- What should be returned: closed paths within `κ` of the input, nested as a forest (a contour without a parent is outer; the parent of a contour comes
earlier and has the opposite flag), that wind once around the points of the region and not at all around other points. -/
structure RightDrawing (eps κ : ℝ) (s : Segments ℝ) (region : ℝ → ℝ → Prop) (out : List OutContour) : Prop where
  form : ∀ c ∈ out, ∃ p els, c.path = .moveTo p :: (els ++ [.closePath]) ∧ ∀ e ∈ els, Stroke e
  drawn : ∀ c ∈ out, ∃ gs, pathSegs c.path = some gs ∧ gs ≠ [] ∧ Loop gs ∧ ∀ g ∈ gs, Level eps s g ∨ ∀ u, 0 ≤ u → u ≤ 1 → Close κ s (drawnX g u) (drawnY g u)
  top : ∀ (i : Nat) (c : OutContour), out[i]? = some c → c.parent = none → c.outer = true
  tree : ∀ (i : Nat) (c : OutContour) (p : Nat), out[i]? = some c → c.parent = some p → p < i ∧ ∃ d : OutContour, out[p]? = some d ∧ c.outer = !d.outer
  winding : ∀ x z, Outside κ s x z → (region x z → windOut out x z = 1) ∧ (¬ region x z → windOut out x z = 0)

variable {cfg : Cfg} {s : Segments ℝ} {ρ : Nat → ℝ} {μ σ Wd H : ℝ}

/-- **C98.** For any number of tagged paths with curves, in general position and with no curve cut into pieces, any winding number and any predicate that does
not select the outside, `from_paths` and `contours` return, and the returned paths are right. -/
theorem C98_paths {T W : Type} [AddCommGroup W] [DecidableEq W] {tags : List T} {ps : List (List (PathEl ℝ) × T)} (again : Nat → Nat → Bool) (single : T → Bool → W)
    (hn : ∀ t b, single t (!b) = - single t b) (inside : W → Bool) (h0 : inside 0 = false) (he : 0 < cfg.eps) (hpp : Searches cfg.pp)
    (hsolve : Geom.FindsRoots cfg.solve) (hf : OneFirst cfg.first) (hb : buildPaths ps = .ok s tags) (hU : Unsplit s) (hL : LooseCurves cfg.eps ρ s)
    (hT : Tight cfg.eps ρ s) (hB : Beyond cfg s) (hM : Mild cfg.eps ρ s μ σ Wd H) (hρ : ∀ i, Slanted s i → ρ i ≤ 2 * cfg.eps) :
    ∃ N out, (∀ fuel, N ≤ fuel → (fromPaths cfg single inside ps fuel).draw cfg again fuel = .ok out) ∧
      RightDrawing cfg.eps (driftOf cfg.eps μ σ Wd H) s (fun x z => inside (ps.map fun p => windPath p.1 x z • single p.2 true).sum = true) out := by
  have ha := buildPaths_arena hb
  have hG := general_of_curves ha he hsolve hf hL
  obtain ⟨N, t, t', cs, h1, hV, h2, h3, h4, h5⟩ := general_contours single hn inside he hpp hsolve hf hb hG
  have hacc := sweep_accurate ha he hV (env_tidy_general ha he hpp hsolve hf hG (meets_curves ha he hsolve hf hL hT) hB N) h2 h3
  obtain ⟨M, out, d1, d2, d3, d4, d5, d6⟩ := draw_curves again ha he hpp hsolve hf hn hV h2 h3 h4 hacc hU hL hM
  refine ⟨max N M, out, fun fuel hfu => ?_, d2, d3, d4, d5, fun x z hx => ?_⟩
  · obtain ⟨pos, p1, p2⟩ := d1 fuel (by omega)
    rw [h1 fuel (by omega)]
    simp only [Mapped.draw, p1, p2]
  · have ho := hx.off ha he hM hρ
    rw [d6 x z hx, h5 x z (ho.away he fun i hi => (hL.gentle i hi).1) (ho.beside ha he hsolve hf hL), h0]
    constructor <;> intro h <;> simp [h]

/-- **C98.** Every boolean combination `f` of any number of such paths that does not contain the points that are in none of them. -/
theorem C98_shapes {n : Nat} (ps : Fin n → List (PathEl ℝ)) {tags : List (Fin n)} (again : Nat → Nat → Bool) (rule : FillRule) (f : (Fin n → Prop) → Prop)
    (h0 : ¬ f fun _ => False) (he : 0 < cfg.eps) (hpp : Searches cfg.pp) (hsolve : Geom.FindsRoots cfg.solve) (hf : OneFirst cfg.first)
    (hb : buildPaths (numberedPaths ps) = .ok s tags) (hU : Unsplit s) (hL : LooseCurves cfg.eps ρ s)
    (hT : Tight cfg.eps ρ s) (hB : Beyond cfg s) (hM : Mild cfg.eps ρ s μ σ Wd H) (hρ : ∀ i, Slanted s i → ρ i ≤ 2 * cfg.eps) :
    ∃ N out, (∀ fuel, N ≤ fuel → (fromPaths cfg counter (wanted rule f) (numberedPaths ps) fuel).draw cfg again fuel = .ok out) ∧
      RightDrawing cfg.eps (driftOf cfg.eps μ σ Wd H) s (fun x z => f fun i => InShape rule (windPath (ps i) x z)) out := by
  obtain ⟨N, out, h1, h2⟩ := C98_paths again counter counter_neg (wanted rule f) (wanted_zero h0) he hpp hsolve hf hb hU hL hT hB hM hρ
  refine ⟨N, out, h1, h2.form, h2.drawn, h2.top, h2.tree, fun x z hx => ?_⟩
  have := h2.winding x z hx
  simp only [sum_numbered, wanted, decide_eq_true_eq] at this
  exact this

/-- **C98.** One path with integers as winding numbers (`Topology::<i32>::from_path`). -/
theorem C98_single {tags : List Unit} {p : List (PathEl ℝ)} (again : Nat → Nat → Bool) (inside : ℤ → Bool) (h0 : inside 0 = false) (he : 0 < cfg.eps) (hpp : Searches cfg.pp)
    (hsolve : Geom.FindsRoots cfg.solve) (hf : OneFirst cfg.first) (hb : buildPaths [(p, ())] = .ok s tags) (hU : Unsplit s) (hL : LooseCurves cfg.eps ρ s)
    (hT : Tight cfg.eps ρ s) (hB : Beyond cfg s) (hM : Mild cfg.eps ρ s μ σ Wd H) (hρ : ∀ i, Slanted s i → ρ i ≤ 2 * cfg.eps) :
    ∃ N out, (∀ fuel, N ≤ fuel → (fromPath cfg inside p fuel).draw cfg again fuel = .ok out) ∧
      RightDrawing cfg.eps (driftOf cfg.eps μ σ Wd H) s (fun x z => inside (windPath p x z) = true) out := by
  have hs : ∀ (t : Unit) (b : Bool), single1 t (!b) = - single1 t b := by intro t b; cases b <;> simp [single1]
  obtain ⟨N, out, h1, h2⟩ := C98_paths (cfg := cfg) again single1 hs inside h0 he hpp hsolve hf hb hU hL hT hB hM hρ
  refine ⟨N, out, h1, h2.form, h2.drawn, h2.top, h2.tree, fun x z hx => ?_⟩
  have := h2.winding x z hx
  simpa [single1] using this

/-! ## Non-vacuity -/

/-- The two shapes bounded by curves of C87 as numbered shapes, and the points that are in exactly one of them, as returned: a point between the two curves is inside, a
point to the left of both is not. -/
theorem Bow.exactly_one (again : Nat → Nat → Bool) : ∃ N out,
    (∀ fuel, N ≤ fuel → (fromPaths Cross.cfg' counter (wanted .evenOdd fun P => ∃! i, P i) (numberedPaths ![Bow.thin, Bow.large]) fuel).draw Cross.cfg' again fuel = .ok out) ∧
    windOut out (5 / 2) 1500 = 1 ∧ windOut out (-1) 1500 = 0 := by
  obtain ⟨s, tags, hb⟩ := Bow.built
  obtain ⟨hl, hp⟩ := Bow.arena_bows hb
  have lt : ∀ {i}, Slanted s i → i < 4 := fun h => by rw [← hl]; exact h.1
  obtain ⟨u, hu⟩ := buildPaths_tags (ps' := numberedPaths ![Bow.thin, Bow.large]) (by simp [tagged, numberedPaths, List.ofFn_succ]) hb
  obtain ⟨N, out, h1, h2⟩ := C98_shapes (cfg := Cross.cfg') (ρ := fun _ => 1 / 5000) ![Bow.thin, Bow.large] again .evenOdd (fun P => ∃! i, P i)
    (by rintro ⟨i, h, -⟩; exact h) (by norm_num [Cross.cfg, Cross.cfg']) Ex.searches (Classical.choose_spec Geom.findsRoots_exists)
    Cross.oneFirst hu (Bow.unsplit hb) (Bow.loose hb)
    (tight_of_steep (buildPaths_arena hb) (by norm_num [Cross.cfg, Cross.cfg']) (σ := fun _ => 1 / 375) (fun i hi => by rw [hp i (lt hi)]; exact ⟨by norm_num, Bow.steep_piece i⟩)
      (fun i j _ _ _ => by norm_num [Cross.cfg', Cross.cfg])) (Bow.beyond hb) (Bow.mild hb) (fun i _ => by norm_num [Cross.cfg', Cross.cfg])
  refine ⟨N, out, h1, ?_, ?_⟩
  · refine (h2.winding (5 / 2) 1500 (Bow.outside hb (.inl rfl))).1 ⟨1, ?_, ?_⟩
    · simp only [Matrix.cons_val_one, Matrix.cons_val_zero, Matrix.cons_val_fin_one]
      rw [Bow.large, Bow.wind_bow (by norm_num)]
      norm_num [InShape]
    · intro i hi
      fin_cases i
      · simp only [Fin.zero_eta, Matrix.cons_val_zero] at hi
        rw [Bow.thin, Bow.wind_bow (by norm_num)] at hi
        norm_num [InShape] at hi
      · rfl
  · refine (h2.winding (-1) 1500 (Bow.outside hb (.inr rfl))).2 ?_
    rintro ⟨i, hi, -⟩
    fin_cases i
    · simp only [Fin.zero_eta, Matrix.cons_val_zero] at hi
      rw [Bow.thin, Bow.wind_bow (by norm_num)] at hi
      norm_num [InShape] at hi
    · simp only [Fin.mk_one, Matrix.cons_val_one, Matrix.cons_val_fin_one] at hi
      rw [Bow.large, Bow.wind_bow (by norm_num)] at hi
      norm_num [InShape] at hi

end Verif.Full
