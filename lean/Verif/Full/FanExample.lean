import Verif.Full.Returned

/-!
# A vertex where four edges end, two edges that coincide, and a crossing

Two triangles that have a vertex and a side in common, and of which another two sides cross.
-/

namespace Verif.Full
open Verif.Segs (Segments)
open Verif.Curve Verif.BinOp
set_option linter.unusedSectionVars false

theorem EdgeChain.symm {eps : ℝ} {pss : List (List (Segs.Pt ℝ))} {t : ℝ} {i j : Nat} (h : EdgeChain eps pss t i j) : EdgeChain eps pss t j i := by
  unfold EdgeChain at h ⊢
  induction h with
  | refl => exact Relation.ReflTransGen.refl
  | tail _ h2 ih =>
    obtain ⟨a, b, h3, h4, h5⟩ := h2
    exact (Relation.ReflTransGen.single ⟨b, a, h4, h3, h5.symm⟩).trans ih

/-- A segment that is never to the right of the other, and clearly to the left somewhere if it is to the left anywhere. -/
theorem quiet_of_le {eps : ℝ} {a b : Geom.Seg} (h : ∀ t, a.start.y ≤ t → t ≤ a.stop.y → b.start.y ≤ t → t ≤ b.stop.y → a.atY t ≤ b.atY t)
    (hs : LeftOf a b → Separated eps a b) : Quiet eps a b := by
  have h1 : ¬ LeftOf b a := fun ⟨t, h1, h2, h3⟩ => absurd h3 (not_lt.2 (h t h2.1 h2.2 h1.1 h1.2))
  exact ⟨fun hl => ⟨h1, hs hl⟩, fun hl => absurd hl h1⟩

namespace Fan

/-- A triangle that has the vertex at the origin and the side on the left in common with the triangle `up`. -/
def kite : List (Segs.Pt ℝ) := [⟨0, 0⟩, ⟨-10, 10⟩, ⟨20, 5⟩]

/-- The edges that are not horizontal. -/
noncomputable def edge : Fin 5 → Geom.Seg
  | 0 => .line ⟨0, 0⟩ ⟨-10, 10⟩
  | 1 => .line ⟨0, 0⟩ ⟨10, 10⟩
  | 2 => .line ⟨0, 0⟩ ⟨-10, 10⟩
  | 3 => .line ⟨0, 0⟩ ⟨20, 5⟩
  | 4 => .line ⟨20, 5⟩ ⟨-10, 10⟩

/-- Their numbers. -/
def num : Fin 5 → Nat
  | 0 => 2
  | 1 => 0
  | 2 => 3
  | 3 => 5
  | 4 => 4

theorem at0 (t : ℝ) : (edge 0).atY t = -t := by simp [edge, Geom.Seg.atY, Geom.Seg.Horizontal]
theorem at1 (t : ℝ) : (edge 1).atY t = t := by simp [edge, Geom.Seg.atY, Geom.Seg.Horizontal]
theorem at2 (t : ℝ) : (edge 2).atY t = -t := at0 t
theorem at3 (t : ℝ) : (edge 3).atY t = 4 * t := by
  simp only [edge, Geom.Seg.atY, Geom.Seg.Horizontal]; norm_num; ring
theorem at4 (t : ℝ) : (edge 4).atY t = 50 - 6 * t := by
  simp only [edge, Geom.Seg.atY, Geom.Seg.Horizontal]; norm_num; ring

theorem edge_list : edges [Cross.up, kite] = [(⟨0, 0⟩, ⟨10, 10⟩), (⟨10, 10⟩, ⟨-10, 10⟩), (⟨-10, 10⟩, ⟨0, 0⟩), (⟨0, 0⟩, ⟨-10, 10⟩), (⟨-10, 10⟩, ⟨20, 5⟩), (⟨20, 5⟩, ⟨0, 0⟩)] := by
  simp [edges, Segs.closedEdges, Cross.up, kite]

theorem edge_at {t : ℝ} {n : Nat} {g : Geom.Seg} (h : EdgeAt [Cross.up, kite] t n g) : ∃ i, g = edge i ∧ n = num i := by
  obtain ⟨e, h1, h2, h3, _⟩ := h
  rw [edge_list] at h1
  unfold down at h3
  rcases n with _ | _ | _ | _ | _ | _ | n <;> simp only [List.getElem?_cons_zero, List.getElem?_cons_succ, List.getElem?_nil, Option.some.injEq, reduceCtorEq] at h1 <;>
    subst h1 <;> first | (exfalso; exact h2 rfl) | norm_num [pt] at h3
  · exact ⟨1, h3, rfl⟩
  · exact ⟨0, h3, rfl⟩
  · exact ⟨2, h3, rfl⟩
  · exact ⟨4, h3, rfl⟩
  · exact ⟨3, h3, rfl⟩

theorem edge_eq {g : Geom.Seg} (h : Edge [Cross.up, kite] g) : ∃ i, g = edge i := by
  obtain ⟨ps, hps, e, he, hg, hlt⟩ := h
  have hm : e ∈ edges [Cross.up, kite] := List.mem_flatMap.2 ⟨ps, hps, he⟩
  rw [edge_list] at hm
  simp only [List.mem_cons, List.not_mem_nil, or_false] at hm
  rcases hm with rfl | rfl | rfl | rfl | rfl | rfl <;> rcases hg with rfl | rfl <;> first | (exfalso; norm_num [pt, Geom.Seg.start, Geom.Seg.stop] at hlt; done) | simp only [pt]
  · exact ⟨1, rfl⟩
  · exact ⟨0, rfl⟩
  · exact ⟨0, rfl⟩
  · exact ⟨4, rfl⟩
  · exact ⟨3, rfl⟩

/-- Where the edges on the right meet others. -/
theorem meets1 {i : Fin 5} (hne : i ≠ 1) {t : ℝ} (h : Meet (1 / 100) t (edge 1) (edge i)) : t < 1 ∨ (7 < t ∧ t < 8 ∧ i = 4) := by
  obtain ⟨y0, y1, _, _, h3, h4, h5⟩ := h
  rw [abs_le] at h3 h4 h5
  fin_cases i <;> simp only [Fin.zero_eta, Fin.mk_one, Fin.reduceFinMk, at0, at1, at2, at3, at4] at h5 ⊢
  · left; linarith
  · exact absurd rfl hne
  · left; linarith
  · left; linarith
  · right; exact ⟨by linarith, by linarith, by decide⟩

theorem meets4 {i : Fin 5} (hne : i ≠ 4) {t : ℝ} (h : Meet (1 / 100) t (edge 4) (edge i)) : t < 6 ∨ 9 < t ∨ (7 < t ∧ t < 8 ∧ i = 1) := by
  obtain ⟨y0, y1, _, _, h3, h4, h5⟩ := h
  rw [abs_le] at h3 h4 h5
  fin_cases i <;> simp only [Fin.zero_eta, Fin.mk_one, Fin.reduceFinMk, at0, at1, at2, at3, at4] at h5 ⊢
  · right; left; linarith
  · right; right; exact ⟨by linarith, by linarith, by decide⟩
  · right; left; linarith
  · left; linarith
  · exact absurd rfl hne

/-- Only two edges cross. -/
theorem loud {i j : Fin 5} (h : ¬ Quiet (1 / 100) (edge i) (edge j)) : i = 1 ∧ j = 4 ∨ i = 4 ∧ j = 1 := by
  have sep : ∀ {i j : Fin 5} (y : ℝ), max (edge i).start.y (edge j).start.y < y → y ≤ min (edge i).stop.y (edge j).stop.y →
      (∀ y0 y1, |y0 - y| ≤ 1 / 100 → |y1 - y| ≤ 1 / 100 → (edge i).atY y0 + 3 / 2 * (1 / 100) < (edge j).atY y1) → Separated (1 / 100) (edge i) (edge j) :=
    fun y h1 h2 h3 => .inl ⟨y, h1, h2, fun y0 y1 _ _ _ _ a b => h3 y0 y1 a b⟩
  have same : ∀ {a b : Geom.Seg}, (∀ t, a.start.y ≤ t → t ≤ a.stop.y → b.start.y ≤ t → t ≤ b.stop.y → a.atY t = b.atY t) → Quiet (1 / 100) a b := fun h =>
    quiet_of_le (fun t a b c d => (h t a b c d).le) fun ⟨t, h1, h2, h3⟩ => absurd h3 (by rw [h t h1.1 h1.2 h2.1 h2.2]; exact lt_irrefl _)
  have q01 : Quiet (1 / 100) (edge 0) (edge 1) := by
    refine quiet_of_le (fun t h1 _ _ _ => ?_) fun _ => sep 5 ?_ ?_ fun y0 y1 h0 h1 => ?_
    · norm_num [edge, Geom.Seg.start] at h1; rw [at0, at1]; linarith
    · norm_num [edge, Geom.Seg.start]
    · norm_num [edge, Geom.Seg.stop]
    · rw [abs_le] at h0 h1; rw [at0, at1]; linarith
  have q03 : Quiet (1 / 100) (edge 0) (edge 3) := by
    refine quiet_of_le (fun t h1 _ _ _ => ?_) fun _ => sep 5 ?_ ?_ fun y0 y1 h0 h1 => ?_
    · norm_num [edge, Geom.Seg.start] at h1; rw [at0, at3]; linarith
    · norm_num [edge, Geom.Seg.start]
    · norm_num [edge, Geom.Seg.stop]
    · rw [abs_le] at h0 h1; rw [at0, at3]; linarith
  have q04 : Quiet (1 / 100) (edge 0) (edge 4) := by
    refine quiet_of_le (fun t _ h1 _ _ => ?_) fun _ => sep 6 ?_ ?_ fun y0 y1 h0 h1 => ?_
    · norm_num [edge, Geom.Seg.stop] at h1; rw [at0, at4]; linarith
    · norm_num [edge, Geom.Seg.start]
    · norm_num [edge, Geom.Seg.stop]
    · rw [abs_le] at h0 h1; rw [at0, at4]; linarith
  have q13 : Quiet (1 / 100) (edge 1) (edge 3) := by
    refine quiet_of_le (fun t h1 _ _ _ => ?_) fun _ => sep 4 ?_ ?_ fun y0 y1 h0 h1 => ?_
    · norm_num [edge, Geom.Seg.start] at h1; rw [at1, at3]; linarith
    · norm_num [edge, Geom.Seg.start]
    · norm_num [edge, Geom.Seg.stop]
    · rw [abs_le] at h0 h1; rw [at1, at3]; linarith
  have q34 : Quiet (1 / 100) (edge 3) (edge 4) := same fun t _ h1 h2 _ => by
    norm_num [edge, Geom.Seg.start, Geom.Seg.stop] at h1 h2; rw [at3, at4]; linarith
  have self : ∀ i, Quiet (1 / 100) (edge i) (edge i) := fun i => same fun _ _ _ _ _ => rfl
  have e2 : edge 2 = edge 0 := rfl
  fin_cases i <;> fin_cases j <;> simp only [Fin.zero_eta, Fin.mk_one, Fin.reduceFinMk, e2] at h <;>
    first
    | exact absurd (self _) h
    | exact absurd q01 h
    | exact absurd q01.symm h
    | exact absurd q03 h
    | exact absurd q03.symm h
    | exact absurd q04 h
    | exact absurd q04.symm h
    | exact absurd q13 h
    | exact absurd q13.symm h
    | exact absurd q34 h
    | exact absurd q34.symm h
    | exact .inl ⟨rfl, rfl⟩
    | exact .inr ⟨rfl, rfl⟩

theorem loose : LoosePolygons (1 / 100) [Cross.up, kite] := by
  have inj : ∀ {i j : Fin 5}, num i = num j → i = j := by decide
  -- the crossing edges are only linked at the crossing
  have link : ∀ {t : ℝ}, 5 ≤ t → EdgeChain (1 / 100) [Cross.up, kite] t (num 1) (num 4) → 7 < t ∧ t < 8 := by
    intro t ht h
    obtain ⟨k, a, b, h1, h2, h3, h4, -⟩ := h.first (by decide)
    obtain ⟨i, rfl, hi⟩ := edge_at h2
    obtain rfl := inj hi
    obtain ⟨j, rfl, rfl⟩ := edge_at h3
    rcases meets1 (fun hc => h1 (by rw [hc])) h4 with h | h
    · linarith
    · exact ⟨h.1, h.2.1⟩
  refine ⟨?_, ?_, ?_, ?_⟩
  · intro g hg
    obtain ⟨i, rfl⟩ := edge_eq hg
    fin_cases i <;> norm_num [edge, Moderate, slope, Geom.Seg.start, Geom.Seg.stop]
  · intro g h hg hh
    obtain ⟨i, rfl⟩ := edge_eq hg
    left
    fin_cases i <;> norm_num [edge, slope, Geom.Seg.start, Geom.Seg.stop]
  · intro i j k a b c t n ha hb hc hq hch hm
    obtain ⟨i', rfl, rfl⟩ := edge_at ha
    obtain ⟨j', rfl, rfl⟩ := edge_at hb
    obtain ⟨k', rfl, rfl⟩ := edge_at hc
    have ht : ∀ {n : Nat}, EdgeAt [Cross.up, kite] t n (edge 4) → 5 ≤ t := by
      rintro n ⟨_, _, _, _, h, _⟩
      exact h
    rcases loud hq with ⟨rfl, rfl⟩ | ⟨rfl, rfl⟩
    · have h1 := link (ht hb) hch
      by_cases hk : k' = 1
      · left; rw [hk]
      · rcases meets1 hk hm with h | h
        · linarith
        · right; rw [h.2.2]
    · have h1 := link (ht ha) hch.symm
      by_cases hk : k' = 4
      · left; rw [hk]
      · rcases meets4 hk hm with h | h | h
        · linarith
        · linarith
        · right; rw [h.2.2]
  · intro i j a b t n hq hv ha hb m
    obtain ⟨i', rfl, rfl⟩ := edge_at ha
    obtain ⟨j', rfl, rfl⟩ := edge_at hb
    have ht : t = 0 ∨ t = 10 ∨ t = 5 := by
      obtain ⟨ps, hps, p, hp, rfl⟩ := hv
      simp only [List.mem_cons, List.not_mem_nil, or_false] at hps
      rcases hps with rfl | rfl <;> simp only [Cross.up, kite, List.mem_cons, List.not_mem_nil, or_false] at hp <;> rcases hp with rfl | rfl | rfl <;> simp
    have h5 : ∀ {n : Nat}, EdgeAt [Cross.up, kite] t n (edge 4) → 5 ≤ t := by
      rintro n ⟨_, _, _, _, h, _⟩
      exact h
    exfalso
    rcases loud hq with ⟨rfl, rfl⟩ | ⟨rfl, rfl⟩
    · have := h5 hb
      rcases meets1 (by decide) m with h | h <;> rcases ht with h0 | h0 | h0 <;> linarith
    · have := h5 ha
      rcases meets1 (by decide) m.symm with h | h <;> rcases ht with h0 | h0 | h0 <;> linarith

/-- The polygons do not satisfy the stronger conditions: the edges cross, and at the origin more than two of them meet. -/
theorem not_planar : ¬ Polygons (1 / 100) [Cross.up, kite] := by
  intro h
  refine h.nocross (edge 1) (edge 4) ⟨Cross.up, by simp, (⟨0, 0⟩, ⟨10, 10⟩), by simp [Segs.closedEdges, Cross.up], .inl rfl, by norm_num [edge, Geom.Seg.start, Geom.Seg.stop]⟩
    ⟨kite, by simp, (⟨-10, 10⟩, ⟨20, 5⟩), by simp [Segs.closedEdges, kite], .inr rfl, by norm_num [edge, Geom.Seg.start, Geom.Seg.stop]⟩ ⟨6, ?_, ?_, ?_⟩ ⟨9, ?_, ?_, ?_⟩
  all_goals first | (norm_num [edge, Geom.Seg.start, Geom.Seg.stop]; done) | (rw [at1, at4]; norm_num)

theorem beyond : BeyondCorners Cross.cfg' ([Cross.up] ++ [kite]) := by
  intro ps hps e he
  simp only [List.cons_append, List.nil_append, List.mem_cons, List.not_mem_nil, or_false] at hps
  rcases hps with rfl | rfl
  all_goals
    simp [Segs.closedEdges, Cross.up, kite, List.mem_cons] at he
    rcases he with rfl | rfl | rfl <;> norm_num [Cross.cfg']

theorem kite_wind (x z : ℝ) : windPolyline kite x z = (if 0 ≤ z ∧ z < 10 ∧ -z < x then 1 else 0) + (if 5 ≤ z ∧ z < 10 ∧ 50 - 6 * z < x then -1 else 0) +
    (if 0 ≤ z ∧ z < 5 ∧ 4 * z < x then -1 else 0) := by
  simp only [windPolyline, Segs.closedEdges, kite, List.length_cons, List.length_nil, List.tail_cons, List.take, List.cons_append, List.nil_append, List.zip_cons_cons,
      List.zip_nil_right, Nat.reduceAdd, Nat.reduceLeDiff, if_false, List.map_cons, List.map_nil, List.sum_cons, List.sum_nil, Ex.cross_line]
  have k1 : ∀ p : Prop, ¬ (10 ≤ z ∧ z < 0 ∧ p) := fun p h => by linarith [h.1, h.2.1]
  have k2 : ∀ p : Prop, ¬ (10 ≤ z ∧ z < 5 ∧ p) := fun p h => by linarith [h.1, h.2.1]
  have k3 : ∀ p : Prop, ¬ (5 ≤ z ∧ z < 0 ∧ p) := fun p h => by linarith [h.1, h.2.1]
  simp only [k1, k2, k3, if_false]
  have a1 : (20 : ℝ) + (z - 5) / (10 - 5) * (-10 - 20) = 50 - 6 * z := by ring
  have a2 : (0 : ℝ) + (z - 0) / (5 - 0) * (20 - 0) = 4 * z := by ring
  have a3 : (0 : ℝ) + (z - 0) / (10 - 0) * (-10 - 0) = -z := by ring
  rw [a1, a2, a3]
  norm_num
  ring

/-- The exclusive or of the triangles, drawn as paths. The paths wind once around points of one of the triangles, below and above the crossing, and not
around points of both or none. -/
theorem xor_winds : ∃ N out, (∀ fuel, N ≤ fuel → polylineOpPaths Cross.cfg' (fun _ _ => true) [Cross.up] [kite] .nonZero .xor fuel = .ok out) ∧
    RightPaths (1 / 100) [Cross.up] [kite] .nonZero .xor out ∧
    windOut out 10 4 = 1 ∧ windOut out 0 9 = 1 ∧ windOut out 0 5 = 0 ∧ windOut out 9 8 = 0 ∧ windOut out (-7) 6 = 0 := by
  obtain ⟨N, out, h1, h2⟩ := C85_crossing (cfg := Cross.cfg') (as := [Cross.up]) (bs := [kite]) (fun _ _ => true) (by norm_num [Cross.cfg', Cross.cfg]) Ex.searches
    (Classical.choose_spec Geom.findsRoots_exists) Cross.oneFirst loose beyond .nonZero .xor
  have dist : ∀ {x z : ℝ}, (x = 10 ∧ z = 4) ∨ (x = 0 ∧ z = 9) ∨ (x = 0 ∧ z = 5) ∨ (x = 9 ∧ z = 8) ∨ (x = -7 ∧ z = 6) → Distant (1 / 100) ([Cross.up] ++ [kite]) x z := by
    intro x z hxz ps hps e he v v0 v1
    by_contra hcon
    push Not at hcon
    obtain ⟨a1, a2⟩ := hcon
    simp only [List.cons_append, List.nil_append, List.mem_cons, List.not_mem_nil, or_false] at hps
    rw [abs_le] at a1 a2
    rcases hps with rfl | rfl
    all_goals
      simp [Segs.closedEdges, Cross.up, kite, List.mem_cons] at he
      rcases he with rfl | rfl | rfl <;> dsimp only at a1 a2 <;> rcases hxz with ⟨rfl, rfl⟩ | ⟨rfl, rfl⟩ | ⟨rfl, rfl⟩ | ⟨rfl, rfl⟩ | ⟨rfl, rfl⟩ <;> linarith [a1.1, a1.2, a2.1, a2.2]
  refine ⟨N, out, h1, h2, ?_, ?_, ?_, ?_, ?_⟩
  · refine (h2.winding 10 4 (dist (by simp))).1 ?_
    simp only [List.map_cons, List.map_nil, Cross.up_wind, kite_wind]
    norm_num [Combine, InShape]
  · refine (h2.winding 0 9 (dist (by simp))).1 ?_
    simp only [List.map_cons, List.map_nil, Cross.up_wind, kite_wind]
    norm_num [Combine, InShape]
  · refine (h2.winding 0 5 (dist (by simp))).2 ?_
    simp only [List.map_cons, List.map_nil, Cross.up_wind, kite_wind]
    norm_num [Combine, InShape]
  · refine (h2.winding 9 8 (dist (by simp))).2 ?_
    simp only [List.map_cons, List.map_nil, Cross.up_wind, kite_wind]
    norm_num [Combine, InShape]
  · refine (h2.winding (-7) 6 (dist (by simp))).2 ?_
    simp only [List.map_cons, List.map_nil, Cross.up_wind, kite_wind]
    norm_num [Combine, InShape]

end Fan

end Verif.Full
