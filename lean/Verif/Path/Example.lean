import Verif.Path.Join

/-!
# Examples of paths of contours (C74, C75)

The parabola `y = x ^ 2 / 3` from `(-3, 3)` to `(3, 3)` is one input curve, closed by a horizontal line. It is split at its lowest point `(0, 0)`.
-/

namespace Verif.Path.Ex
open Verif.Geom Verif.Topo Verif.Pos

/-- The whole parabola. -/
noncomputable def arc : PSeg := .cubic ⟨⟨-3, 3⟩, ⟨-1, -1⟩, ⟨1, -1⟩, ⟨3, 3⟩⟩
/-- The parts to the left and to the right of the lowest point, upwards. -/
noncomputable def leg (l : Bool) : Cubic := if l then ⟨⟨0, 0⟩, ⟨-1, 0⟩, ⟨-2, 1⟩, ⟨-3, 3⟩⟩ else ⟨⟨0, 0⟩, ⟨1, 0⟩, ⟨2, 1⟩, ⟨3, 3⟩⟩

/-- The input: segment 0 is the left part, segment 1 the right part, segment 2 the line. -/
noncomputable def src (arc' : PSeg) : Src where
  seg i := match i with
    | 0 => .cubic (leg true)
    | 1 => .cubic (leg false)
    | _ => .line ⟨-3, 3⟩ ⟨3, 3⟩
  orient i := i == 1
  split i := match i with
    | 0 => (0, 1 / 2)
    | 1 => (1 / 2, 1)
    | _ => (0, 1)
  input i := match i with
    | 0 => arc
    | 1 => arc'
    | _ => .line ⟨3, 3⟩ ⟨-3, 3⟩

/-- The topology: every segment is an output segment; two of them meet at each of the points `0 = (0, 0)`, `1 = (-3, 3)`, `2 = (3, 3)`. -/
noncomputable def topo : Topo ℝ ℤ where
  n := 3
  openSegs _ := []
  winding _ := ⟨0, 0⟩
  points := [(0, 0), (-3, 3), (3, 3)]
  pointIdx h := match h.idx, h.first with
    | 0, true => some 0
    | 0, false => some 1
    | 1, true => some 0
    | 1, false => some 2
    | _, true => some 1
    | _, false => some 2
  nb h := match h.idx, h.first with
    | 0, true => ⟨⟨1, true⟩, ⟨1, true⟩⟩
    | 0, false => ⟨⟨2, true⟩, ⟨2, true⟩⟩
    | 1, true => ⟨⟨0, true⟩, ⟨0, true⟩⟩
    | 1, false => ⟨⟨2, false⟩, ⟨2, false⟩⟩
    | _, true => ⟨⟨0, false⟩, ⟨0, false⟩⟩
    | _, false => ⟨⟨1, false⟩, ⟨1, false⟩⟩
  deleted _ := false
  scanWest _ := none
  scanEast _ := none
  scanAfter := []
  origSeg i := i
  positive i := i == 1

/-- A layout that copies every segment. -/
noncomputable def whole (i : Nat) : OPath := match i with
  | 0 => ⟨⟨0, 0⟩, [.curve ⟨-1, 0⟩ ⟨-2, 1⟩ ⟨-3, 3⟩], some 0⟩
  | 1 => ⟨⟨0, 0⟩, [.curve ⟨1, 0⟩ ⟨2, 1⟩ ⟨3, 3⟩], some 0⟩
  | _ => ⟨⟨-3, 3⟩, [.line ⟨3, 3⟩], none⟩

/-- A layout that draws the same, but the right part in two elements: the first is copied from the segment up to the height `3 / 4`, the second is a quadratic, as
after a point from which on another curve is too close. -/
noncomputable def parts (i : Nat) : OPath := match i with
  | 0 => ⟨⟨0, 0⟩, [.curve ⟨-1, 0⟩ ⟨-2, 1⟩ ⟨-3, 3⟩], some 0⟩
  | 1 => ⟨⟨0, 0⟩, [.curve ⟨1 / 2, 0⟩ ⟨1, 1 / 4⟩ ⟨3 / 2, 3 / 4⟩, .quad ⟨9 / 4, 3 / 2⟩ ⟨3, 3⟩], some 0⟩
  | _ => ⟨⟨-3, 3⟩, [.line ⟨3, 3⟩], none⟩

/-- The contour: down the right part, up the left part, back along the line. -/
def segs : List Half := [⟨1, true⟩, ⟨0, false⟩, ⟨2, false⟩]

theorem orig (i : Nat) : topo.origSeg i = i := rfl
theorem pt0 : pt topo ⟨0, true⟩ = ⟨0, 0⟩ := rfl
theorem pt1 : pt topo ⟨0, false⟩ = ⟨-3, 3⟩ := rfl
theorem pt2 : pt topo ⟨1, true⟩ = ⟨0, 0⟩ := rfl
theorem pt3 : pt topo ⟨1, false⟩ = ⟨3, 3⟩ := rfl
theorem pt4 : pt topo ⟨2, true⟩ = ⟨-3, 3⟩ := rfl
theorem pt5 : pt topo ⟨2, false⟩ = ⟨3, 3⟩ := rfl

theorem closed : Contours.Closed topo segs := by
  refine ⟨by simp [segs], ?_⟩
  intro k h
  simp only [segs, List.length_cons, List.length_nil] at h
  interval_cases k <;> rfl

theorem leg_mono (l : Bool) : (leg l).Mono := by
  refine ⟨by cases l <;> norm_num [leg], ?_⟩
  intro u u0 u1
  cases l <;> simp [leg, Cubic.derivAt, Cubic.deriv, bez2] <;> nlinarith

theorem laid_whole : ∀ s ∈ segs, Laid topo whole s := by
  intro s hs
  simp [segs] at hs
  rcases hs with rfl | rfl | rfl <;> exact ⟨rfl, rfl, by simp [whole]⟩
theorem laid_parts : ∀ s ∈ segs, Laid topo parts s := by
  intro s hs
  simp [segs] at hs
  rcases hs with rfl | rfl | rfl <;> exact ⟨rfl, rfl, by simp [parts]⟩

theorem piece0 (a : PSeg) : (src a).Piece 0 where
  lo := by norm_num [src]
  le := by norm_num [src]
  hi := by norm_num [src]
  mono := leg_mono true
  part u := by ext <;> simp [src, Seg.toCubic, leg, arc, Cubic.eval, PSeg.eval, bez3] <;> ring

theorem piece1 : (src arc).Piece 1 where
  lo := by norm_num [src]
  le := by norm_num [src]
  hi := by norm_num [src]
  mono := leg_mono false
  part u := by ext <;> simp [src, Seg.toCubic, leg, arc, Cubic.eval, PSeg.eval, bez3] <;> ring

theorem solve3 (l : Bool) : solveT (leg l) 3 = 1 := (leg_mono l).solveT_unique zero_le_one le_rfl (by rw [Cubic.eval_one]; cases l <;> simp [leg])

/-- The right part can be merged at its lower end. -/
theorem merge1 (a : PSeg) (pos : Nat → OPath) (hp : (pos 1).copied = some 0) : canMerge topo (src a) pos ⟨1, true⟩ = some 1 := by
  refine canMerge_iff.2 ⟨?_, rfl, hp, ?_, ?_⟩
  · simp [topo, src, Seg.Horizontal, leg]
  · simp [orig, src, pt2, Src.orientedStart, Seg.start, leg]
  · have : solveT ((src a).seg (topo.origSeg 1)).toCubic (pt topo (Half.other ⟨1, true⟩)).y = 1 := solve3 false
    simp only [this]
    simp [inputT, src, topo]

/-- So can the left part. -/
theorem merge0 (a : PSeg) (pos : Nat → OPath) (hp : (pos 0).copied = some 0) : canMerge topo (src a) pos ⟨0, true⟩ = some 0 := by
  refine canMerge_iff.2 ⟨?_, rfl, hp, ?_, ?_⟩
  · simp [topo, src, Seg.Horizontal, leg]
  · simp [orig, src, pt0, Src.orientedEnd, Seg.start, leg]; norm_num
  · have : solveT ((src a).seg (topo.origSeg 0)).toCubic (pt topo (Half.other ⟨0, true⟩)).y = 1 := solve3 true
    simp only [this]
    simp [inputT, src, topo]

theorem merge_other (a : PSeg) (pos : Nat → OPath) : canMerge topo (src a) pos ⟨1, false⟩ = none := by
  by_contra h
  obtain ⟨τ, hτ⟩ := Option.ne_none_iff_exists'.1 h
  have := (canMerge_iff.1 hτ).2.2.2.1
  simp [topo, src] at this
theorem merge_top (a : PSeg) (pos : Nat → OPath) : canMerge topo (src a) pos ⟨0, false⟩ = none := by
  by_contra h
  obtain ⟨τ, hτ⟩ := Option.ne_none_iff_exists'.1 h
  have := (canMerge_iff.1 hτ).2.2.2.1
  simp [topo, src] at this
theorem merge_line (a : PSeg) (pos : Nat → OPath) (b : Bool) : canMerge topo (src a) pos ⟨2, b⟩ = none := by
  by_contra h
  obtain ⟨τ, hτ⟩ := Option.ne_none_iff_exists'.1 h
  exact (canMerge_iff.1 hτ).1 (by simp [topo, src, Seg.Horizontal])

/-- The path for any layout that copies the lower ends. -/
theorem path_eq (a : PSeg) (pos : Nat → OPath) (h0 : (pos 0).copied = some 0) (h1 : (pos 1).copied = some 0) :
    segsToPath topo (src a) pos segs = some (⟨3, 3⟩, (oriented pos ⟨1, true⟩).dropLast ++ [(subInput arc 1 0).el] ++ (oriented pos ⟨0, false⟩).tail ++
      oriented pos ⟨2, false⟩) := by
  classical
  have m1 := merge1 a pos h1
  have m0 := merge0 a pos h0
  have n1 := merge_other a pos
  have n0 := merge_top a pos
  have n2 := merge_line a pos
  unfold segsToPath
  have hk : (segs.findIdx? fun s => decide (canMerge topo (src a) pos s.other = none)) = some 0 := by
    rw [List.findIdx?_eq_some_iff_getElem]
    refine ⟨by simp [segs], ?_, by intro j hj; omega⟩
    show decide (canMerge topo (src a) pos ⟨1, false⟩ = none) = true
    simpa using n1
  rw [hk]
  simp only [segs, List.getElem?_cons_zero, List.drop_zero, List.take_zero, List.append_nil, Option.some.injEq, Prod.mk.injEq]
  refine ⟨rfl, ?_⟩
  rw [pathLoop_plain (Or.inr rfl), m1, pathLoop_merge (s := ⟨0, false⟩) m0, n0, if_pos rfl, pathLoop_plain (Or.inr rfl), pathLoop]
  simp [topo, src]

/-! ## The hypotheses of C74 and C75 can be met -/

theorem follows : Follows topo (src arc) ⟨1, true⟩ ⟨0, false⟩ := ⟨rfl, Or.inr ⟨by simp [Forward, src, topo], by simp [Forward, src, topo], rfl⟩⟩

/-- C74_runs, C74_closed: the path of the contour. The hypothesis of C74_start holds as well: the only segment whose beginning can be merged is the left part. -/
example : (∃ r, segsToPath topo (src arc) whole segs = some r) ∧ Contours.Closed topo segs ∧ (∀ s ∈ segs, Laid topo whole s) ∧
    (∀ s ∈ segs, ((src arc).split (topo.origSeg s.idx)).1 < ((src arc).split (topo.origSeg s.idx)).2) ∧
    (∀ a ∈ segs, ∀ b ∈ segs, Walk topo a b → canMerge topo (src arc) whole b.other ≠ none → Follows topo (src arc) a b) := by
  refine ⟨⟨_, path_eq arc whole rfl rfl⟩, closed, laid_whole, ?_, ?_⟩
  · intro s hs
    simp [segs] at hs
    rcases hs with rfl | rfl | rfl <;> norm_num [topo, src]
  · intro a ha b hb hw hm
    simp [segs] at ha hb
    rcases hb with rfl | rfl | rfl
    · exact absurd (merge_other arc whole) hm
    · rcases ha with rfl | rfl | rfl
      · exact follows
      · simp [Walk, Half.other, topo] at hw
      · simp [Walk, Half.other, topo] at hw
    · exact absurd (merge_line arc whole true) hm

/-- C74_closed: after the end of the copied pieces is forgotten, nothing is joined. -/
example : ∀ a ∈ segs, ∀ b ∈ segs, Walk topo a b → ¬ Joined topo (src arc) (fun i => { whole i with copied := none }) a b := by
  intro a ha b hb _ hj
  obtain ⟨τ, hτ⟩ := Option.ne_none_iff_exists'.1 hj.1
  have := (canMerge_iff.1 hτ).2.2.1
  simp at this

/-- C75: the run of the two parts. -/
theorem run : RunEls topo (src arc) whole (⟨1, true⟩ :: [] ++ [⟨0, false⟩]) [(subInput arc 1 0).el] := by
  have := RunEls.many (t := topo) (S := src arc) (pos := whole) ⟨1, true⟩ ⟨0, false⟩ [] 1 0 (merge1 arc whole rfl) (merge0 arc whole rfl)
  simpa [oriented, whole, revEls, topo, src] using this

example : (∀ s ∈ (⟨1, true⟩ :: [] ++ [⟨0, false⟩] : List Half), (src arc).Piece (topo.origSeg s.idx) ∧ Within topo (src arc) s) ∧
    (⟨1, true⟩ :: [] ++ [⟨0, false⟩] : List Half).IsChain (Joined topo (src arc) whole) ∧
    (⟨1, true⟩ :: [] ++ [⟨0, false⟩] : List Half).IsChain (Follows topo (src arc)) ∧ (whole 1).els.length = 1 ∧ (whole 0).els.length = 1 := by
  refine ⟨?_, ?_, ?_, rfl, rfl⟩
  · intro s hs
    simp at hs
    rcases hs with rfl | rfl
    · exact ⟨piece1, by simp [Within, Cubic.Spans, pt2, pt3, orig, src, Seg.toCubic, leg]⟩
    · exact ⟨piece0 arc, by simp [Within, Cubic.Spans, pt0, pt1, orig, src, Seg.toCubic, leg]⟩
  · simp only [List.cons_append, List.nil_append, List.isChain_cons_cons, List.isChain_singleton, and_true]
    exact ⟨by rw [merge1 arc whole rfl]; simp, by show canMerge topo (src arc) whole ⟨0, true⟩ ≠ none; rw [merge0 arc whole rfl]; simp⟩
  · simp only [List.cons_append, List.nil_append, List.isChain_cons_cons, List.isChain_singleton, and_true]
    exact follows

theorem solveX_leg (l : Bool) {u y x : ℝ} (u0 : 0 ≤ u) (u1 : u ≤ 1) (hy : ((leg l).eval u).y = y) (hx : ((leg l).eval u).x = x) : solveX (leg l) y = x := by
  rw [← hy, solveX_eval (leg_mono l) u0 u1, hx]

/-- C75_path: both parts are laid out exactly. -/
example : ∀ s ∈ segs, canMerge topo (src arc) whole s ≠ none ∨ canMerge topo (src arc) whole s.other ≠ none → Tight topo (src arc) whole 0 s := by
  intro s hs hm
  have low : ∀ l, solveX (leg l) 0 = 0 := fun l => solveX_leg l le_rfl zero_le_one (by rw [Cubic.eval_zero]; cases l <;> rfl) (by rw [Cubic.eval_zero]; cases l <;> rfl)
  have h1 : solveX (leg true) 3 = -3 := solveX_leg true zero_le_one le_rfl (by rw [Cubic.eval_one]; rfl) (by rw [Cubic.eval_one]; rfl)
  have h2 : solveX (leg false) 3 = 3 := solveX_leg false zero_le_one le_rfl (by rw [Cubic.eval_one]; rfl) (by rw [Cubic.eval_one]; rfl)
  simp [segs] at hs
  rcases hs with rfl | rfl | rfl
  · refine ⟨piece1, by simp [Within, Cubic.Spans, pt2, pt3, orig, src, Seg.toCubic, leg], rfl, ?_⟩
    intro b
    cases b
    · simp [pt3, orig, src, Seg.toCubic, h2]
    · simp [pt2, orig, src, Seg.toCubic, low]
  · refine ⟨piece0 arc, by simp [Within, Cubic.Spans, pt0, pt1, orig, src, Seg.toCubic, leg], rfl, ?_⟩
    intro b
    cases b
    · simp [pt1, orig, src, Seg.toCubic, h1]
    · simp [pt0, orig, src, Seg.toCubic, low]
  · rcases hm with hm | hm
    · exact absurd (merge_line arc whole false) hm
    · exact absurd (merge_line arc whole true) hm

/-! ## What goes wrong -/

/-- A path over the heights of its control points. -/
theorem quad_low (p a q : Pt) (h0 : 0 ≤ p.y) (h1 : 0 ≤ a.y) (h2 : 0 ≤ q.y) : ∀ R ∈ (El.quad a q).trace p, 0 ≤ R.y := by
  rintro R ⟨u, u0, u1, rfl⟩
  have : 0 ≤ 1 - u := by linarith
  simp only [Quad.eval, bez2]; positivity
theorem curve_low (p a b q : Pt) (h0 : 0 ≤ p.y) (h1 : 0 ≤ a.y) (h2 : 0 ≤ b.y) (h3 : 0 ≤ q.y) : ∀ R ∈ (El.curve a b q).trace p, 0 ≤ R.y := by
  rintro R ⟨u, u0, u1, rfl⟩
  have : 0 ≤ 1 - u := by linarith
  simp only [Cubic.eval, bez3]; positivity
theorem line_low (p q : Pt) (h0 : 0 ≤ p.y) (h1 : 0 ≤ q.y) : ∀ R ∈ (El.line q).trace p, 0 ≤ R.y := by
  rintro R ⟨u, u0, u1, rfl⟩
  have : 0 ≤ 1 - u := by linarith
  simp only [Pt.affine]; positivity

/-- **C75 fails if a segment of the run is drawn in more than one element.** All that is laid out is at heights `≥ 0` and the layout copies the pieces of the input curve next to the point
where they meet. But the merged element is made for the whole of the segments although it replaces only the copied pieces: the path goes below all of the input, by `9 / 32`. -/
theorem C75_cut_off : Contours.Closed topo segs ∧ (∀ s ∈ segs, Laid topo parts s) ∧ (src arc).Piece 0 ∧ (src arc).Piece 1 ∧
    Follows topo (src arc) ⟨1, true⟩ ⟨0, false⟩ ∧ (∀ s ∈ segs, ∀ P ∈ drawn parts s, 0 ≤ P.y) ∧
    ∃ r, segsToPath topo (src arc) parts segs = some r ∧ ∃ P ∈ trace r.1 r.2, P.y = -9 / 32 := by
  refine ⟨closed, laid_parts, piece0 arc, piece1, follows, ?_, _, path_eq arc parts rfl rfl, ?_⟩
  · intro s hs
    simp [segs] at hs
    rcases hs with rfl | rfl | rfl
    · intro P hP
      simp only [drawn, parts, trace, Set.union_empty, Set.mem_union] at hP
      rcases hP with hP | hP
      · exact curve_low _ _ _ _ (by norm_num) (by norm_num) (by norm_num) (by norm_num) P hP
      · exact quad_low _ _ _ (by norm_num [El.stop]) (by norm_num) (by norm_num) P hP
    · intro P hP
      simp only [drawn, parts, trace, Set.union_empty] at hP
      exact curve_low _ _ _ _ (by norm_num) (by norm_num) (by norm_num) (by norm_num) P hP
    · intro P hP
      simp only [drawn, parts, trace, Set.union_empty] at hP
      exact line_low _ _ (by norm_num) (by norm_num) P hP
  · have e : (subInput arc 1 0).el = .curve ⟨1, -1⟩ ⟨-1, -1⟩ ⟨-3, 3⟩ := by
      unfold subInput
      rw [if_neg (by norm_num)]
      simp only [arc, PSeg.reverse, PSeg.subsegment, PSeg.el, Cubic.subsegment, El.curve.injEq]
      refine ⟨?_, ?_, ?_⟩ <;> ext <;> simp [Cubic.derivAt, Cubic.deriv, Cubic.eval, bez2, bez3] <;> norm_num
    have d : (oriented parts ⟨1, true⟩).dropLast = [.quad ⟨9 / 4, 3 / 2⟩ ⟨3 / 2, 3 / 4⟩] := by
      simp [oriented, parts, revEls, El.rev, El.stop]
    refine ⟨(Cubic.mk ⟨3 / 2, 3 / 4⟩ ⟨1, -1⟩ ⟨-1, -1⟩ ⟨-3, 3⟩).eval (1 / 2), ?_, by simp [Cubic.eval, bez3]; norm_num⟩
    rw [d, e]
    simp only [List.cons_append, List.nil_append, trace, Set.mem_union]
    exact Or.inr (Or.inl ⟨1 / 2, by norm_num, by norm_num, rfl⟩)

end Verif.Path.Ex
