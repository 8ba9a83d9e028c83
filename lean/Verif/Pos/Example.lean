import Verif.Pos.Shift

/-!
# Concrete inputs of the layout: the hypotheses can be met, and what can go wrong
-/

namespace Verif.Pos
open Verif.Curve Verif.Geom Verif.Scan

/-! ## Evaluation -/

theorem mainLoop_step {I : Input} {n : ℕ} {s s1 : PState} {e : ℝ × Nat} {q : List (ℝ × Nat)} (hq : popMax s.queue = some (e, q))
    (hh : handle I n e { s with queue := q } = some s1) : mainLoop I (n + 1) s = mainLoop I n s1 := by
  simp only [mainLoop, hq, hh]

theorem handle_skip {I : Input} {n : ℕ} {s : PState} {e : ℝ × Nat} (h : e.1 < s.lastY e.2) : handle I n e s = some s := by rw [handle, if_pos h]

open Classical in
theorem handle_one {I : Input} {n : ℕ} {s : PState} {e : ℝ × Nat} {y y1 : ℝ} (h : ¬ e.1 < s.lastY e.2)
    (hw : westScan I e.1 I.n e.2 (I.second e.2).y [e.2] = some (y, [e.2])) (he : eastScan I e.1 I.n e.2 y [] = some (y1, [])) (hy : e.1 ≠ y1) :
    handle I n e s = some ⟨s.out, fun i => if i = e.2 then y1 else s.lastY i, s.queue ++ if y1 < (I.second e.2).y then [(y1, e.2)] else []⟩ := by
  rw [handle, if_neg h, hw]
  simp only [he, place]
  simp only [List.reverse_cons, List.reverse_nil, List.nil_append, List.append_nil, List.length_singleton, if_true, if_neg hy, Option.map_some, List.mem_singleton]
  congr 2
  by_cases h : y1 < (I.second e.2).y
  · simp [h]
  · simp [h]

open Classical in
theorem handle_group {I : Input} {n : ℕ} {s : PState} {e : ℝ × Nat} {y y1 : ℝ} {west east : List Nat} (h : ¬ e.1 < s.lastY e.2)
    (hw : westScan I e.1 I.n e.2 (I.second e.2).y [e.2] = some (y, west)) (he : eastScan I e.1 I.n e.2 y [] = some (y1, east))
    (hl : (west.reverse ++ east).length ≠ 1) {out : Nat → OPath} (ha : allClose I n (west.reverse ++ east) e.1 y1 s.out = some out) :
    handle I n e s = some ⟨out, fun i => if i ∈ west.reverse ++ east then y1 else s.lastY i,
      s.queue ++ ((west.reverse ++ east).filter fun i => decide (y1 < (I.second i).y)).map fun i => (y1, i)⟩ := by
  rw [handle, if_neg h, hw]
  simp only [he, place, if_neg hl, ha, Option.map_some]

open Classical in
theorem popMax_two (a b : ℝ × Nat) : popMax [a, b] = some (if greater a b then (a, [b]) else (b, [a])) := by
  simp only [popMax, greatest]
  by_cases h : greater a b = true
  · simp [h]
  · simp only [h]
    by_cases hab : a = b
    · subst hab; simp
    · simp [List.erase_cons, hab]

theorem popMax_one (a : ℝ × Nat) : popMax [a] = some (a, []) := by simp [popMax, greatest]

/-! ## Two coincident curves -/

/-- Two copies of a vertical curve between the heights 0 and 3, which cannot be told apart. -/
def pair (solve : ℝ → ℝ → ℝ → ℝ → List ℝ) : Input where
  n := 2
  seg _ := .cubic ⟨⟨0, 0⟩, ⟨0, 1⟩, ⟨0, 2⟩, ⟨0, 3⟩⟩
  orig := id
  first _ := ⟨0, 0⟩
  second _ := ⟨0, 3⟩
  cmp _ _ := ⟨0, [⟨3, .ish⟩]⟩
  maps := ⟨fun i => if i = 1 then [(0, some 0)] else [], fun i => if i = 0 then [(0, some 1)] else []⟩
  accuracy := 1
  solve := solve

theorem neighborAfter_nil (z : ℝ) : neighborAfter ([] : List (Rec ℝ)) z = none := by simp [neighborAfter, Scan.iter]

theorem neighborAfter_one (h z : ℝ) (o : Option Nat) : neighborAfter [(h, o)] z = if h ≤ z then o else none := by
  simp only [neighborAfter, Scan.iter]
  by_cases hz : h ≤ z <;> simp [hz]

theorem two_lines {I : Input} {a b : ℝ} (hn : I.n = 2) (hf : ∀ i, (I.first i).y = a) (hs : ∀ i, (I.second i).y = b)
    (hm : I.maps = ⟨fun i => if i = 1 then [(a, some 0)] else [], fun i => if i = 0 then [(a, some 1)] else []⟩) (z : ℝ) :
    ∃ L : List Nat, L.Nodup ∧ (∀ o, o ∈ L ↔ Alive I o z) ∧
    ∀ l1 o l2, L = l1 ++ o :: l2 → neighborAfter (I.maps.west o) z = l1.getLast? ∧ neighborAfter (I.maps.east o) z = l2.head? := by
  by_cases hz : a ≤ z ∧ z < b
  · refine ⟨[0, 1], by simp, ?_, ?_⟩
    · intro o
      simp only [Alive, hn, hf, hs, hz, and_true, List.mem_cons, List.not_mem_nil, or_false]
      omega
    · intro l1 o l2 e
      rw [hm]
      match l1, e with
      | [], e =>
        simp only [List.nil_append, List.cons.injEq] at e
        obtain ⟨rfl, rfl⟩ := e
        simp [neighborAfter_nil, neighborAfter_one, hz.1]
      | [x], e =>
        simp only [List.cons_append, List.nil_append, List.cons.injEq] at e
        obtain ⟨rfl, rfl, rfl⟩ := e
        simp [neighborAfter_nil, neighborAfter_one, hz.1]
      | x :: x' :: l1, e => simp at e
  · refine ⟨[], by simp, ?_, by simp⟩
    intro o
    simp only [Alive, hf, hs, List.not_mem_nil, false_iff]
    tauto

theorem pair_ok (solve : ℝ → ℝ → ℝ → ℝ → List ℝ) : (pair solve).Ok := by
  refine ⟨one_pos, fun i _ => by simp [pair], two_lines (a := 0) (b := 3) rfl (fun _ => rfl) (fun _ => rfl) rfl, ?_, ?_⟩
  · intro i y o h
    simp only [pair] at h ⊢
    split_ifs at h <;> simp at h <;> omega
  · intro z i j h _
    exact ⟨⟨0, 3, .ish⟩, by simp [pair, CurveOrder.iter, pieces], h.2.2⟩

theorem Input.Ok.shift {I : Input} (ok : I.Ok) (d : ℝ) : (I.shift d).Ok := by
  have al : ∀ o z, Alive (I.shift d) o z ↔ Alive I o (z - d) := by
    intro o z
    simp only [Alive, Input.shift, ptShift]
    constructor <;> rintro ⟨a, b, c⟩ <;> exact ⟨a, by linarith, by linarith⟩
  have nw : ∀ o z, neighborAfter ((I.shift d).maps.west o) z = neighborAfter (I.maps.west o) (z - d) := fun o z => by
    have := neighborAfter_shift d (I.maps.west o) (z - d)
    rwa [sub_add_cancel] at this
  have ne : ∀ o z, neighborAfter ((I.shift d).maps.east o) z = neighborAfter (I.maps.east o) (z - d) := fun o z => by
    have := neighborAfter_shift d (I.maps.east o) (z - d)
    rwa [sub_add_cancel] at this
  refine ⟨ok.acc, fun i hi => ?_, fun z => ?_, ?_, ?_⟩
  · have := ok.down i hi
    simp only [Input.shift, ptShift]; linarith
  · obtain ⟨L, h1, h2, h3⟩ := ok.lines (z - d)
    exact ⟨L, h1, fun o => (h2 o).trans (al o z).symm, fun l1 o l2 e => by rw [nw, ne]; exact h3 l1 o l2 e⟩
  · intro i y o h
    refine ok.recs i (y - d) o ?_
    simp only [Input.shift, mapsShift, List.mem_map, recShift, Prod.mk.injEq] at h
    rcases h with ⟨a, h, rfl, h'⟩ | ⟨a, h, rfl, h'⟩
    · left; rw [← h', add_sub_cancel_right]; exact h
    · right; rw [← h', add_sub_cancel_right]; exact h
  · intro z i j h hn
    rw [ne] at hn
    obtain ⟨p, hp, hz⟩ := ok.cmp (z - d) i j ((al i z).1 h) hn
    refine ⟨pieceShift d p, ?_, ?_⟩
    · show _ ∈ (orderShift d (I.cmp (I.orig i) (I.orig j))).iter
      rw [iter_shift]
      exact List.mem_map_of_mem hp
    · simp only [pieceShift]; linarith

theorem vertical_parallel (l r : Cubic) (y : ℝ) (hl : l.p1.x = l.p0.x) (hr : r.p1.x = r.p0.x) (h1 : 0 < l.p1.y - l.p0.y) (h2 : 0 < r.p1.y - r.p0.y) : transversalAfter l r y = false := by
  unfold transversalAfter
  simp only [hl, hr, sub_self, zero_mul, mul_zero, zero_add, hypot2]
  split
  · rfl
  · rw [if_pos]
    exact ⟨by positivity, by positivity⟩

theorem ySub_whole (c : Cubic) (h : c.p0.y ≠ c.p3.y) : ySubsegment c c.p0.y c.p3.y = c := by
  have e0 : solveT c c.p0.y = 0 := by simp [solveT]
  have e1 : solveT c c.p3.y = 1 := by simp [solveT, h.symm]
  have v0 : c.eval 0 = c.p0 := by ext <;> simp [Cubic.eval, bez3]
  have v1 : c.eval 1 = c.p3 := by ext <;> simp [Cubic.eval, bez3]
  obtain ⟨p0, p1, p2, p3⟩ := c
  simp only [ySubsegment, Cubic.subsegment, e0, e1, v0, v1, Cubic.derivAt, Cubic.deriv, bez2, Cubic.mk.injEq, true_and, and_true]
  constructor <;> ext <;> dsimp only <;> ring

/-- The vertical curve of `pair`. -/
def upright : Cubic := ⟨⟨0, 0⟩, ⟨0, 1⟩, ⟨0, 2⟩, ⟨0, 3⟩⟩

theorem upright_next : nextSub (.cubic upright) ⟨⟨0, 0⟩, [], none⟩ 3 ⟨0, 3⟩ = upright := by
  have h : ySubsegment upright 0 3 = upright := ySub_whole upright (by norm_num [upright])
  simp [nextSub, OPath.stop, Seg.toCubic, h]
  simp [upright]

theorem pair_not_alone (solve : ℝ → ℝ → ℝ → ℝ → List ℝ) {out : Nat → OPath} (ho : ∀ i, out i = ⟨⟨0, 0⟩, [], none⟩) : ¬ LeftAlone (pair solve) 0 3 [0, 1] out := by
  have hs : ∀ i, (pair solve).seg i = .cubic upright := fun _ => rfl
  have h2 : ∀ i, (pair solve).second i = ⟨0, 3⟩ := fun _ => rfl
  rintro (h | ⟨a, b, _, h⟩)
  · obtain ⟨p, q, h⟩ := h 0 (by simp)
    cases h
  · simp only [ho, hs, h2, upright_next] at h
    rcases h with ⟨_, _, h⟩ | ⟨_, _, h⟩
    · rw [vertical_parallel _ _ _ rfl rfl (by norm_num [upright]) (by norm_num [upright])] at h
      cases h
    · rw [transversalBefore, vertical_parallel _ _ _ rfl rfl (by norm_num [upright, Cubic.refl, Pt.refl]) (by norm_num [upright, Cubic.refl, Pt.refl])] at h
      cases h

theorem pair_west (solve : ℝ → ℝ → ℝ → ℝ → List ℝ) : westScan (pair solve) 0 2 1 3 [1] = some (3, [1, 0]) := by
  have n1 : neighborAfter ((pair solve).maps.west 1) 0 = some 0 := by simp [pair, neighborAfter_one]
  have n0 : neighborAfter ((pair solve).maps.west 0) 0 = none := by simp [pair, neighborAfter_nil]
  have pc : ∀ a b, pieceAfter ((pair solve).cmp a b) 0 = some ⟨0, 3, .ish⟩ := fun a b => by simp [pair, pieceAfter, CurveOrder.iter, pieces]
  simp only [westScan, n1, pc, n0, reduceCtorEq, if_false, List.cons_append, List.nil_append]
  simp [pair]

theorem pair_east (solve : ℝ → ℝ → ℝ → ℝ → List ℝ) (y : ℝ) : eastScan (pair solve) 0 2 1 y [] = some (y, []) := by
  have n1 : neighborAfter ((pair solve).maps.east 1) 0 = none := by simp [pair, neighborAfter_nil]
  simp only [eastScan, n1]

/-- A quadratic piece. -/
def El.IsQuad : El → Prop
  | .quad _ _ => True
  | _ => False

theorem setStop_isQuad {e : El} (h : e.IsQuad) (q : Pt) : (e.setStop q).IsQuad := by cases e <;> simp_all [El.IsQuad, El.setStop]

theorem strip_isQuad (s : Strip) (o : Nat) : (s.el o).IsQuad := trivial

/-- C40: the two coincident curves are laid out by quadratic pieces. -/
theorem pair_result (solve : ℝ → ℝ → ℝ → ℝ → List ℝ) : ∃ N out, (∀ n ≥ N, computePositions (pair solve) n = some out) ∧
    ∀ o < 2, (out o).els ≠ [] ∧ ∀ e ∈ (out o).els, e.IsQuad := by
  obtain ⟨N, r, hN⟩ := allClose_total (pair solve) one_pos [0, 1] 0 3 (initState (pair solve)).out
  have hinit : ∀ i, (initState (pair solve)).out i = ⟨⟨0, 0⟩, [], none⟩ := fun i => by simp [initState, initPath, pair]
  have hq : (initState (pair solve)).queue = [(0, 0), (0, 1)] := by simp [initState, pair, List.range_succ]
  have hr : ∀ o < 2, (r o).els ≠ [] ∧ (∀ e ∈ (r o).els, e.IsQuad) ∧ (r o).stop.y = 3 := by
    rcases allClose_spec _ (by simp) (by norm_num) hN with ⟨h, _⟩ | ⟨_, ss, h1, _, h3⟩
    · exact absurd h (pair_not_alone solve hinit)
    · intro o ho
      have hne : ss ≠ [] := by rintro rfl; have := h1.nil_eq; norm_num at this
      have hm : o ∈ [0, 1] := by simp; omega
      have he : ensureOne (pair solve) 0 o ((initState (pair solve)).out o) = ⟨⟨0, 0⟩, [], none⟩ := by
        rw [hinit]; simp [ensureOne, OPath.stop]
      refine ⟨?_, ?_, ?_⟩
      · rw [h3 o, if_pos hm, he]; simpa using hne
      · rw [h3 o, if_pos hm, he]
        intro e hem
        simp only [List.nil_append, List.mem_map] at hem
        obtain ⟨s, _, rfl⟩ := hem
        exact strip_isQuad s o
      · rw [h3 o, if_pos hm]
        exact stacked_stop h1 o _ (.inr hne)
  refine ⟨N + 3, fun o => finish (pair solve) o (r o), ?_, ?_⟩
  · intro n hn
    obtain ⟨k, rfl⟩ : ∃ k, n = k + 3 := ⟨n - 3, by omega⟩
    have s1 : mainLoop (pair solve) (k + 3) (initState (pair solve)) =
        mainLoop (pair solve) (k + 2) ⟨r, fun i => if i ∈ [0, 1] then 3 else 0, [(0, 0)]⟩ := by
      refine mainLoop_step (e := (0, 1)) (q := [(0, 0)]) ?_ ?_
      · rw [hq, popMax_two]; simp [greater]
      · have := handle_group (I := pair solve) (n := k + 2) (s := { initState (pair solve) with queue := [(0, 0)] }) (e := (0, 1)) (y := 3) (y1 := 3)
          (west := [1, 0]) (east := []) (by simp [initState]) (pair_west solve) (pair_east solve 3) (by simp) (out := r)
          (by simpa using allClose_mono _ (by omega) hN)
        rw [this]
        simp [initState, pair]
    have s2 : mainLoop (pair solve) (k + 2) ⟨r, fun i => if i ∈ [0, 1] then 3 else 0, [(0, 0)]⟩ =
        mainLoop (pair solve) (k + 1) ⟨r, fun i => if i ∈ [0, 1] then 3 else 0, []⟩ := by
      refine mainLoop_step (e := (0, 0)) (q := []) (popMax_one _) (handle_skip ?_)
      simp
    rw [computePositions, s1, s2]
    simp [mainLoop, popMax]
  · intro o ho
    obtain ⟨a, b, c⟩ := hr o ho
    have : ¬ (r o).stop.y < ((pair solve).second o).y := by rw [c]; simp [pair]
    simp only [finish, if_neg this]
    obtain ⟨l, e, hl⟩ : ∃ l e, (r o).els = l ++ [e] := ⟨_, _, (List.dropLast_append_getLast a).symm⟩
    rw [hl] at b
    simp only [hl, List.getLast?_append, List.getLast?_singleton, Option.some_or, List.dropLast_concat]
    refine ⟨by simp, fun f hf => ?_⟩
    simp only [List.mem_append, List.mem_singleton] at hf
    rcases hf with hf | rfl
    · exact b f (by simp [hf])
    · exact setStop_isQuad (b e (by simp)) _

/-- **C40 (why heights above zero are excluded).** The layout of two coincident curves between the heights 0 and 3 consists of quadratic pieces, which
are in order; the layout of the same two curves, moved up by 3, does not consist of quadratic pieces: the curves are only copied. -/
theorem C40_not_invariant (solve : ℝ → ℝ → ℝ → ℝ → List ℝ) : ∃ (I : Input) (N : ℕ) (out out' : Nat → OPath), I.solve = solve ∧ I.Ok ∧ (I.shift (-3)).Ok ∧
    (∀ n ≥ N, computePositions I n = some out ∧ computePositions (I.shift (-3)) n = some out') ∧
    ∀ o < I.n, ((out o).els ≠ [] ∧ ∀ e ∈ (out o).els, e.IsQuad) ∧ ((out' o).els ≠ [] ∧ ∀ e ∈ (out' o).els, ¬ e.IsQuad) := by
  obtain ⟨N, out, h1, h2⟩ := pair_result solve
  obtain ⟨N', out', h1', h2'⟩ := C40_above_zero ((pair_ok solve).shift (-3))
  refine ⟨pair solve, max N N', out, out', rfl, pair_ok solve, (pair_ok solve).shift (-3), fun n hn => ⟨h1 n (by omega), h1' n (by omega)⟩, ?_⟩
  intro o ho
  refine ⟨h2 o ho, ?_⟩
  rw [h2' o ho (by simp [Input.shift, ptShift, pair]) (by simp [Input.shift, ptShift, pair])]
  refine ⟨by simp, ?_⟩
  intro e he
  simp only [List.mem_singleton] at he
  subst he
  unfold copyEl
  split <;> exact id

/-! ## A curve that approaches a line and withdraws from it -/

/-- The curve of `dip`: it touches the vertical line `x = 0` at the height 2. -/
noncomputable def bow : Cubic := ⟨⟨3, 0⟩, ⟨-1, 4 / 3⟩, ⟨-1, 8 / 3⟩, ⟨3, 4⟩⟩

/-- A vertical line and a curve to its right, between the heights 0 and 4; they are close between the heights 1 and 3. -/
noncomputable def dip (solve : ℝ → ℝ → ℝ → ℝ → List ℝ) : Input where
  n := 2
  seg i := if i = 0 then .line ⟨0, 0⟩ ⟨0, 4⟩ else .cubic bow
  orig := id
  first i := if i = 0 then ⟨0, 0⟩ else ⟨3, 0⟩
  second i := if i = 0 then ⟨0, 4⟩ else ⟨3, 4⟩
  cmp i _ := if i = 0 then ⟨0, [⟨1, .left⟩, ⟨3, .ish⟩, ⟨4, .left⟩]⟩ else ⟨0, [⟨1, .right⟩, ⟨3, .ish⟩, ⟨4, .right⟩]⟩
  maps := ⟨fun i => if i = 1 then [(0, some 0)] else [], fun i => if i = 0 then [(0, some 1)] else []⟩
  accuracy := 1
  solve := solve

theorem dip_ok (solve : ℝ → ℝ → ℝ → ℝ → List ℝ) : (dip solve).Ok := by
  refine ⟨one_pos, fun i _ => ?_, two_lines (a := 0) (b := 4) rfl (fun i => ?_) (fun i => ?_) rfl, ?_, ?_⟩
  · simp only [dip]; split <;> norm_num
  · simp only [dip]; split <;> rfl
  · simp only [dip]; split <;> rfl
  · intro i y o h
    simp only [dip] at h ⊢
    split_ifs at h <;> simp at h <;> omega
  · intro z i j h _
    have hz : z < 4 := by
      have := h.2.2
      simp only [dip] at this
      split at this <;> exact this
    by_cases hi : i = 0
    · exact ⟨⟨3, 4, .left⟩, by simp [dip, CurveOrder.iter, pieces, hi], hz⟩
    · exact ⟨⟨3, 4, .right⟩, by simp [dip, CurveOrder.iter, pieces, hi], hz⟩

section
variable (solve : ℝ → ℝ → ℝ → ℝ → List ℝ)

theorem dip_n1 {z : ℝ} (h : 0 ≤ z) : neighborAfter ((dip solve).maps.west 1) z = some 0 := by simp [dip, neighborAfter_one, h]
theorem dip_n0 (z : ℝ) : neighborAfter ((dip solve).maps.west 0) z = none := by simp [dip, neighborAfter_nil]
theorem dip_e0 {z : ℝ} (h : 0 ≤ z) : neighborAfter ((dip solve).maps.east 0) z = some 1 := by simp [dip, neighborAfter_one, h]
theorem dip_e1 (z : ℝ) : neighborAfter ((dip solve).maps.east 1) z = none := by simp [dip, neighborAfter_nil]
theorem dip_p0 : pieceAfter ((dip solve).cmp 0 1) 0 = some ⟨0, 1, .left⟩ := by simp [dip, pieceAfter, CurveOrder.iter, pieces]
theorem dip_p1 : pieceAfter ((dip solve).cmp 0 1) 1 = some ⟨1, 3, .ish⟩ := by
  simp [dip, pieceAfter, CurveOrder.iter, pieces]
theorem dip_p3 : pieceAfter ((dip solve).cmp 0 1) 3 = some ⟨3, 4, .left⟩ := by
  simp [dip, pieceAfter, CurveOrder.iter, pieces]; norm_num
theorem dip_cw0 : closeAfter ((dip solve).maps.west 1) (fun o => (dip solve).cmp 1 o) 0 = some 1 := by
  simp [dip, closeAfter, Scan.iter, CurveOrder.iter, pieces, List.takeWhile]
theorem dip_cw3 : closeAfter ((dip solve).maps.west 1) (fun o => (dip solve).cmp 1 o) 3 = none := by
  simp [dip, closeAfter, Scan.iter, CurveOrder.iter, pieces, List.takeWhile]
  intro x hx h
  split at hx
  · simp only [List.mem_singleton] at hx; subst hx; cases h
  · cases hx
theorem dip_ce0 : closeAfter ((dip solve).maps.east 0) (fun o => (dip solve).cmp 0 o) 0 = some 1 := by
  simp [dip, closeAfter, Scan.iter, CurveOrder.iter, pieces, List.takeWhile]
theorem dip_ce3 : closeAfter ((dip solve).maps.east 0) (fun o => (dip solve).cmp 0 o) 3 = none := by
  simp [dip, closeAfter, Scan.iter, CurveOrder.iter, pieces, List.takeWhile]
  intro x hx h
  split at hx
  · simp only [List.mem_singleton] at hx; subst hx; cases h
  · cases hx

theorem dip_second (i : Nat) : ((dip solve).second i).y = 4 := by simp only [dip]; split <;> rfl
theorem dip_id (i : Nat) : (dip solve).orig i = i := rfl

theorem dip_west_1_0 : westScan (dip solve) 0 2 1 4 [1] = some (1, [1]) := by
  simp only [westScan, dip_n1 solve le_rfl, dip_id, dip_p0, if_true, dip_cw0]; norm_num
theorem dip_west_0 (z y : ℝ) : westScan (dip solve) z 2 0 y [0] = some (y, [0]) := by
  simp only [westScan, dip_n0]
theorem dip_east_1 (z y : ℝ) : eastScan (dip solve) z 2 1 y [] = some (y, []) := by
  simp only [eastScan, dip_e1]
theorem dip_east_0_0 : eastScan (dip solve) 0 2 0 4 [] = some (1, []) := by
  simp only [eastScan, dip_e0 solve le_rfl, dip_id, dip_p0, if_true, dip_ce0]; norm_num
theorem dip_west_1_1 : westScan (dip solve) 1 2 1 4 [1] = some (3, [1, 0]) := by
  simp only [westScan, dip_n1 solve zero_le_one, dip_id, dip_p1, reduceCtorEq, if_false, dip_second, dip_n0]; norm_num
theorem dip_west_1_3 : westScan (dip solve) 3 2 1 4 [1] = some (4, [1]) := by
  simp only [westScan, dip_n1 solve (by norm_num : (0 : ℝ) ≤ 3), dip_id, dip_p3, if_true, dip_cw3]
theorem dip_east_0_3 : eastScan (dip solve) 3 2 0 4 [] = some (4, []) := by
  simp only [eastScan, dip_e0 solve (by norm_num : (0 : ℝ) ≤ 3), dip_id, dip_p3, if_true, dip_ce3]

theorem dip_init (i : Nat) : (initState (dip solve)).out i = ⟨(dip solve).first i, [], none⟩ := by
  simp only [initState, initPath]
  rw [if_neg]
  simp only [dip]
  split <;> norm_num

theorem dip_not_alone {out : Nat → OPath} (ho : ∀ i, out i = ⟨(dip solve).first i, [], none⟩) : ¬ LeftAlone (dip solve) 1 3 [0, 1] out := by
  rintro (h | ⟨a, b, _, h⟩)
  · obtain ⟨p, q, h⟩ := h 1 (by simp)
    simp [dip] at h
  · have h0 : ((dip solve).first a).y = 0 := by simp only [dip]; split <;> rfl
    rcases h with ⟨h, _⟩ | ⟨h, _⟩
    · rw [ho] at h
      simp [OPath.stop, h0] at h
    · rw [dip_second] at h; norm_num at h

theorem dip_loop {N : ℕ} {r : Nat → OPath} (hN : allClose (dip solve) N [0, 1] 1 3 (initState (dip solve)).out = some r) (n : ℕ) (hn : N + 7 ≤ n) :
    ∃ s, mainLoop (dip solve) n (initState (dip solve)) = some s ∧ s.out = r := by
  obtain ⟨k, rfl⟩ : ∃ k, n = k + 7 := ⟨n - 7, by omega⟩
  have hq : (initState (dip solve)).queue = [(0, 0), (0, 1)] := by simp [initState, dip, List.range_succ]
  have e1 : mainLoop (dip solve) (k + 7) (initState (dip solve)) =
      mainLoop (dip solve) (k + 6) ⟨(initState (dip solve)).out, fun i => if i = 1 then 1 else 0, [(0, 0), (1, 1)]⟩ := by
    refine mainLoop_step (e := (0, 1)) (q := [(0, 0)]) (by rw [hq, popMax_two]; simp [greater]) ?_
    rw [handle_one (by simp [initState]) (by rw [dip_second]; exact dip_west_1_0 solve) (dip_east_1 solve _ _) (by simp)]
    simp [initState, dip_second]
  have e2 : mainLoop (dip solve) (k + 6) ⟨(initState (dip solve)).out, fun i => if i = 1 then 1 else 0, [(0, 0), (1, 1)]⟩ =
      mainLoop (dip solve) (k + 5) ⟨(initState (dip solve)).out, fun i => if i = 0 then 1 else if i = 1 then 1 else 0, [(1, 1), (1, 0)]⟩ := by
    refine mainLoop_step (e := (0, 0)) (q := [(1, 1)]) (by rw [popMax_two]; simp [greater]) ?_
    rw [handle_one (by simp) (dip_west_0 solve _ _) (by rw [dip_second]; exact dip_east_0_0 solve) (by simp)]
    simp [dip_second]
  have e3 : mainLoop (dip solve) (k + 5) ⟨(initState (dip solve)).out, fun i => if i = 0 then 1 else if i = 1 then 1 else 0, [(1, 1), (1, 0)]⟩ =
      mainLoop (dip solve) (k + 4) ⟨r, fun i => if i ∈ [0, 1] then 3 else if i = 0 then 1 else if i = 1 then 1 else 0, [(1, 0), (3, 0), (3, 1)]⟩ := by
    refine mainLoop_step (e := (1, 1)) (q := [(1, 0)]) (by rw [popMax_two]; simp [greater]) ?_
    rw [handle_group (west := [1, 0]) (east := []) (by simp) (by rw [dip_second]; exact dip_west_1_1 solve) (dip_east_1 solve _ _) (by simp) (out := r)
      (by simpa using allClose_mono _ (by omega) hN)]
    simp [dip_second]
    norm_num
  have e4 : mainLoop (dip solve) (k + 4) ⟨r, fun i => if i ∈ [0, 1] then 3 else if i = 0 then 1 else if i = 1 then 1 else 0, [(1, 0), (3, 0), (3, 1)]⟩ =
      mainLoop (dip solve) (k + 3) ⟨r, fun i => if i ∈ [0, 1] then 3 else if i = 0 then 1 else if i = 1 then 1 else 0, [(3, 0), (3, 1)]⟩ := by
    refine mainLoop_step (e := (1, 0)) (q := [(3, 0), (3, 1)]) (by simp [popMax, greatest, greater]) (handle_skip ?_)
    simp
  obtain ⟨lastY, hl⟩ : ∃ l : Nat → ℝ, l = fun i => if i ∈ [0, 1] then 3 else if i = 0 then 1 else if i = 1 then 1 else 0 := ⟨_, rfl⟩
  rw [e1, e2, e3, e4, ← hl]
  have l0 : lastY 0 = 3 := by rw [hl]; simp
  have l1 : lastY 1 = 3 := by rw [hl]; simp
  have e5 : mainLoop (dip solve) (k + 3) ⟨r, lastY, [(3, 0), (3, 1)]⟩ = mainLoop (dip solve) (k + 2) ⟨r, fun i => if i = 1 then 4 else lastY i, [(3, 0)]⟩ := by
    refine mainLoop_step (e := (3, 1)) (q := [(3, 0)]) (by rw [popMax_two]; simp [greater]) ?_
    rw [handle_one (by simp [l1]) (by rw [dip_second]; exact dip_west_1_3 solve) (dip_east_1 solve _ _) (by norm_num)]
    simp [dip_second]
  have e6 : mainLoop (dip solve) (k + 2) ⟨r, fun i => if i = 1 then 4 else lastY i, [(3, 0)]⟩ =
      mainLoop (dip solve) (k + 1) ⟨r, fun i => if i = 0 then 4 else if i = 1 then 4 else lastY i, []⟩ := by
    refine mainLoop_step (e := (3, 0)) (q := []) (popMax_one _) ?_
    rw [handle_one (by simp [l0]) (dip_west_0 solve _ _) (by rw [dip_second]; exact dip_east_0_3 solve) (by norm_num)]
    simp [dip_second]
  rw [e5, e6]
  refine ⟨⟨r, fun i => if i = 0 then 4 else if i = 1 then 4 else lastY i, []⟩, ?_, rfl⟩
  simp only [mainLoop, popMax]

theorem finish_copy (I : Input) (o : Nat) (p : OPath) (h : p.stop.y < (I.second o).y) :
    finish I o p = ⟨p.start, p.els ++ [copyEl I o p (I.second o).y], some p.els.length⟩ := by
  unfold finish copyEl
  rw [if_pos h]
  split <;> rfl

/-- The layout of `dip`: the path of the line runs to its end, then back up to where the quadratic pieces begin, and again to the end; the path of the
curve consists of a copied part, quadratic pieces, and another copied part. -/
theorem dip_result : ∃ N out, (∀ n ≥ N, computePositions (dip solve) n = some out) ∧
    (∃ q, q ≠ [] ∧ (∀ e ∈ q, e.IsQuad ∧ e.stop.y ≤ 3) ∧ (out 0).els = [.line ⟨0, 4⟩] ++ q ++ [.line ⟨0, 4⟩]) ∧
    ∃ q c c', q ≠ [] ∧ (∀ e ∈ q, e.IsQuad) ∧ (out 1).els = [copyEl (dip solve) 1 c 1] ++ q ++ [copyEl (dip solve) 1 c' 4] ∧ c.stop = ⟨3, 0⟩ ∧ c'.stop.y = 3 ∧
      (out 1).copied = some (1 + q.length) := by
  obtain ⟨N, r, hN⟩ := allClose_total (dip solve) one_pos [0, 1] 1 3 (initState (dip solve)).out
  refine ⟨N + 7, fun o => finish (dip solve) o (r o), ?_, ?_⟩
  · intro n hn
    obtain ⟨s, hs, rfl⟩ := dip_loop solve hN n hn
    rw [computePositions, hs]
    rfl
  rcases allClose_spec _ (by simp) (by norm_num) hN with ⟨h, _⟩ | ⟨_, ss, h1, _, h3⟩
  · exact absurd h (dip_not_alone solve (dip_init solve))
  have hne : ss ≠ [] := by rintro rfl; have := h1.nil_eq; norm_num at this
  have stop : ∀ o ∈ [0, 1], (r o).stop.y = 3 := fun o ho => by
    rw [h3 o, if_pos ho]; exact stacked_stop h1 o _ (.inr hne)
  constructor
  · refine ⟨ss.map fun s => s.el 0, by simpa using hne, ?_, ?_⟩
    · intro e he
      have := stacked_between h1 0 e he
      obtain ⟨s, _, rfl⟩ := List.mem_map.1 he
      exact ⟨strip_isQuad s 0, this.2⟩
    · have hr : (r 0).els = [.line ⟨0, 4⟩] ++ ss.map fun s => s.el 0 := by
        rw [h3 0, if_pos (by simp), dip_init]
        simp [ensureOne, OPath.stop, dip, isLine, OPath.push]
      have hst := stop 0 (by simp)
      dsimp only
      rw [finish_copy _ _ _ (by rw [hst, dip_second]; norm_num), hr]
      simp [copyEl, dip, isLine]
  · obtain ⟨p, hp⟩ : ∃ p : OPath, p = ⟨(dip solve).first 1, [], none⟩ := ⟨_, rfl⟩
    have hlt : p.stop.y < 1 := by simp [hp, OPath.stop, dip]
    have hr : r 1 = ⟨(dip solve).first 1, [copyEl (dip solve) 1 p 1] ++ ss.map fun s => s.el 1, some 0⟩ := by
      rw [h3 1, if_pos (by simp), dip_init, ← hp]
      rcases ensureOne_cases (dip solve) 1 1 p with ⟨_, h⟩ | ⟨_, h⟩
      · exact absurd hlt (not_lt.2 h)
      · rw [h, hp]; simp
    have hst := stop 1 (by simp)
    have hf := finish_copy (dip solve) 1 (r 1) (by rw [hst, dip_second]; norm_num)
    refine ⟨ss.map fun s => s.el 1, p, r 1, by simpa using hne, ?_, ?_, ?_, hst, ?_⟩
    · intro e he
      obtain ⟨s, _, rfl⟩ := List.mem_map.1 he
      exact strip_isQuad s 1
    · dsimp only
      rw [hf, dip_second]
      dsimp only
      congr 1
      rw [hr]
    · rw [hp]; simp [OPath.stop, dip]
    · dsimp only
      rw [hf, hr]
      simp [Nat.add_comm]

end

/-- **C39 (what is not guaranteed).** The path of an output segment need not descend all the time: here an end point is followed by a higher one. -/
theorem C39_not_descending (solve : ℝ → ℝ → ℝ → ℝ → List ℝ) : ∃ (I : Input) (N : ℕ) (out : Nat → OPath), I.solve = solve ∧ I.Ok ∧ (∀ n ≥ N, computePositions I n = some out) ∧
    ∃ i < I.n, ∃ l e f l', (out i).els = l ++ e :: f :: l' ∧ f.stop.y < e.stop.y := by
  obtain ⟨N, out, h1, ⟨q, hq, hq', h2⟩, _⟩ := dip_result solve
  refine ⟨dip solve, N, out, rfl, dip_ok solve, h1, 0, by simp [dip], ?_⟩
  obtain ⟨f, l', rfl⟩ := List.exists_cons_of_ne_nil hq
  refine ⟨[], .line ⟨0, 4⟩, f, l' ++ [.line ⟨0, 4⟩], by rw [h2]; simp, ?_⟩
  have := (hq' f (by simp)).2
  show f.stop.y < 4
  linarith

/-- **C71 (what is not guaranteed).** A path can have two unperturbed parts with perturbed ones in between; only the last is recorded. -/
theorem C71_two_copied (solve : ℝ → ℝ → ℝ → ℝ → List ℝ) : ∃ (I : Input) (N : ℕ) (out : Nat → OPath), I.solve = solve ∧ I.Ok ∧ (∀ n ≥ N, computePositions I n = some out) ∧
    ∃ i < I.n, ∃ q c c' y, q ≠ [] ∧ (∀ e ∈ q, e.IsQuad) ∧ c.stop = I.first i ∧ (out i).els = [copyEl I i c y] ++ q ++ [copyEl I i c' (I.second i).y] ∧
      (out i).copied = some (1 + q.length) := by
  obtain ⟨N, out, h1, _, q, c, c', h2, h3, h4, h5, _, h6⟩ := dip_result solve
  exact ⟨dip solve, N, out, rfl, dip_ok solve, h1, 1, by simp [dip], q, c, c', 1, h2, h3, by rw [h5]; simp [dip], by rw [dip_second]; exact h4, h6⟩

end Verif.Pos
