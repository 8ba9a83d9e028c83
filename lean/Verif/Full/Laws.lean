import Verif.Full.FanExample

/-!
# Laws of the boolean operations, end to end

What the returned paths of several operations on the same polygons have to do with each other, at all points away from the edges.
-/

namespace Verif.Full
open Verif.Segs (Segments)
open Verif.Curve Verif.BinOp
set_option linter.unusedSectionVars false

/-! ## Specification -/

/-- The operation on polygons returns the paths `out`. -/
def Returns (cfg : Cfg) (again : Nat → Nat → Bool) (as bs : List (List (Segs.Pt ℝ))) (rule : FillRule) (op : Op) (out : List OutContour) : Prop :=
  ∃ N, ∀ fuel, N ≤ fuel → polylineOpPaths cfg again as bs rule op fuel = .ok out

/-- The point is in the shape that the polygons enclose. -/
def Encloses (rule : FillRule) (as : List (List (Segs.Pt ℝ))) (x z : ℝ) : Prop := InShape rule (as.map fun ps => windPolyline ps x z).sum

/-! ## The order of the arguments -/

variable {cfg : Cfg} {as bs : List (List (Segs.Pt ℝ))}

/-- The number that an edge gets if the two lists of polygons are exchanged. -/
def exchanged (n m i : Nat) : Nat := if i < n then i + m else i - n

theorem exchanged_inj {n m i j : Nat} (hi : i < n + m) (hj : j < n + m) (h : exchanged n m i = exchanged n m j) : i = j := by
  unfold exchanged at h
  split_ifs at h <;> omega

theorem edgeAt_lt {pss : List (List (Segs.Pt ℝ))} {t : ℝ} {i : Nat} {g : Geom.Seg} (h : EdgeAt pss t i g) : i < (edges pss).length := by
  obtain ⟨e, h, -⟩ := h
  exact (List.getElem?_eq_some_iff.1 h).1

theorem edgeAt_exchange {t : ℝ} {i : Nat} {g : Geom.Seg} (h : EdgeAt (bs ++ as) t i g) : EdgeAt (as ++ bs) t (exchanged (edges bs).length (edges as).length i) g := by
  obtain ⟨e, h1, h2⟩ := h
  refine ⟨e, ?_, h2⟩
  rw [edges_append, List.getElem?_append] at h1 ⊢
  unfold exchanged
  split at h1
  · rename_i h0
    rw [if_pos h0, if_neg (by omega)]
    rw [Nat.add_sub_cancel]; exact h1
  · rename_i h0
    rw [if_neg h0, if_pos (List.getElem?_eq_some_iff.1 h1).1]; exact h1

theorem edge_exchange {g : Geom.Seg} (h : Edge (bs ++ as) g) : Edge (as ++ bs) g := by
  obtain ⟨ps, h1, h2⟩ := h
  exact ⟨ps, by rw [List.mem_append] at h1 ⊢; exact h1.symm, h2⟩

/-- General position does not depend on which polygons come first. -/
theorem LoosePolygons.exchange {eps : ℝ} (h : LoosePolygons eps (as ++ bs)) : LoosePolygons eps (bs ++ as) := by
  have lt : ∀ {t i g}, EdgeAt (bs ++ as) t i g → i < (edges bs).length + (edges as).length := by
    intro t i g hg
    have := edgeAt_lt hg
    rwa [edges_append, List.length_append] at this
  refine ⟨fun g hg => h.moderate g (edge_exchange hg), fun g g' hg hg' => h.upright g g' (edge_exchange hg) (edge_exchange hg'), ?_, ?_⟩
  · intro i j k a b c t n ha hb hc hq hch hm
    have hch' : EdgeChain eps (as ++ bs) t (exchanged (edges bs).length (edges as).length i) (exchanged (edges bs).length (edges as).length j) := by
      unfold EdgeChain at hch ⊢
      clear hq n hb
      induction hch with
      | refl => exact .refl
      | tail _ h2 ih =>
        obtain ⟨p, q, h1, h2, h3⟩ := h2
        exact ih.tail ⟨p, q, edgeAt_exchange h1, edgeAt_exchange h2, h3⟩
    rcases h.alone _ _ _ a b c t (fun e => n (exchanged_inj (lt ha) (lt hb) e)) (edgeAt_exchange ha) (edgeAt_exchange hb) (edgeAt_exchange hc) hq hch' hm with e | e
    · exact .inl (exchanged_inj (lt hc) (lt ha) e)
    · exact .inr (exchanged_inj (lt hc) (lt hb) e)
  · rintro i j a b t n hq ⟨ps, h1, h2⟩ ha hb hm
    exact h.ends _ _ a b t (fun e => n (exchanged_inj (lt ha) (lt hb) e)) hq ⟨ps, by rw [List.mem_append] at h1 ⊢; exact h1.symm, h2⟩ (edgeAt_exchange ha)
      (edgeAt_exchange hb) hm

theorem BeyondCorners.exchange (h : BeyondCorners cfg (as ++ bs)) : BeyondCorners cfg (bs ++ as) :=
  fun ps hps => h ps (by rw [List.mem_append] at hps ⊢; exact hps.symm)

theorem Distant.exchange {eps x z : ℝ} (h : Distant eps (as ++ bs) x z) : Distant eps (bs ++ as) x z :=
  fun ps hps => h ps (by rw [List.mem_append] at hps ⊢; exact hps.symm)

/-! ## What is returned is right -/

theorem Returns.unique {again : Nat → Nat → Bool} {rule : FillRule} {op : Op} {out out' : List OutContour} (h : Returns cfg again as bs rule op out)
    (h' : Returns cfg again as bs rule op out') : out = out' := by
  obtain ⟨N, h⟩ := h
  obtain ⟨M, h'⟩ := h'
  have := h (max N M) (le_max_left _ _)
  rw [h' (max N M) (le_max_right _ _)] at this
  simpa using this.symm

section
variable {again : Nat → Nat → Bool} {rule : FillRule} (he : 0 < cfg.eps) (hpp : Searches cfg.pp) (hsolve : Geom.FindsRoots cfg.solve) (hf : OneFirst cfg.first)
  (hP : LoosePolygons cfg.eps (as ++ bs)) (hB : BeyondCorners cfg (as ++ bs))
include he hpp hsolve hf hP hB

theorem Returns.right {op : Op} {out : List OutContour} (h : Returns cfg again as bs rule op out) : RightPaths cfg.eps as bs rule op out := by
  obtain ⟨N, out', h1, h2⟩ := C85_crossing again he hpp hsolve hf hP hB rule op
  obtain rfl := h.unique ⟨N, h1⟩
  exact h2

open Classical in
theorem Returns.value {op : Op} {out : List OutContour} (h : Returns cfg again as bs rule op out) {x z : ℝ} (hx : Distant cfg.eps (as ++ bs) x z) :
    windOut out x z = if Combine op (Encloses rule as x z) (Encloses rule bs x z) then 1 else 0 := by
  have hr := h.right he hpp hsolve hf hP hB
  split_ifs with hc
  · exact (hr.winding x z hx).1 hc
  · exact (hr.winding x z hx).2 hc

/-- C86, the order of the arguments: union, intersection and exclusive or do not depend on it. -/
theorem C86_commutative {again' : Nat → Nat → Bool} {op : Op} (hop : op ≠ .difference) {out out' : List OutContour} (h : Returns cfg again as bs rule op out)
    (h' : Returns cfg again' bs as rule op out') {x z : ℝ} (hx : Distant cfg.eps (as ++ bs) x z) : windOut out x z = windOut out' x z := by
  classical
  rw [h.value he hpp hsolve hf hP hB hx, h'.value he hpp hsolve hf hP.exchange hB.exchange hx.exchange]
  refine if_congr ?_ rfl rfl
  cases op with
  | union => exact or_comm
  | intersection => exact and_comm
  | difference => exact absurd rfl hop
  | xor => exact or_comm

/-- C86, one operation from the others: a shape is the disjoint union of what is inside and what is outside of the other one, the union consists of the
intersection and the two differences, and the exclusive or of the two differences, which is the union without the intersection. -/
theorem C86_parts {u i d d' e : List OutContour} (hu : Returns cfg again as bs rule .union u) (hi : Returns cfg again as bs rule .intersection i)
    (hd : Returns cfg again as bs rule .difference d) (hd' : Returns cfg again bs as rule .difference d') (hx : Returns cfg again as bs rule .xor e)
    {x z : ℝ} (hz : Distant cfg.eps (as ++ bs) x z) :
    (Encloses rule as x z → windOut i x z + windOut d x z = 1) ∧ (¬ Encloses rule as x z → windOut i x z + windOut d x z = 0) ∧
    windOut u x z = windOut i x z + windOut d x z + windOut d' x z ∧ windOut e x z = windOut d x z + windOut d' x z ∧
    windOut e x z = windOut u x z - windOut i x z := by
  classical
  rw [hu.value he hpp hsolve hf hP hB hz, hi.value he hpp hsolve hf hP hB hz, hd.value he hpp hsolve hf hP hB hz, hx.value he hpp hsolve hf hP hB hz,
    hd'.value he hpp hsolve hf hP.exchange hB.exchange hz.exchange]
  by_cases h1 : Encloses rule as x z <;> by_cases h2 : Encloses rule bs x z <;> simp [Combine, h1, h2]

end

/-- C86, a shape and itself: union and intersection are the shape, the others are empty, at all points away from the edges. -/
theorem C86_self {again : Nat → Nat → Bool} {rule : FillRule} (he : 0 < cfg.eps) (hpp : Searches cfg.pp) (hsolve : Geom.FindsRoots cfg.solve)
    (hf : OneFirst cfg.first) (hP : Polygons cfg.eps as) (hB : BeyondCorners cfg as) :
    (∀ op, ∃ out, Returns cfg again as as rule op out) ∧ ∀ op out, Returns cfg again as as rule op out → ∀ x z, Distant cfg.eps as x z →
      (Encloses rule as x z ∧ (op = .union ∨ op = .intersection) → windOut out x z = 1) ∧
      (¬ Encloses rule as x z ∨ op = .difference ∨ op = .xor → windOut out x z = 0) := by
  have hmem : ∀ {ps}, ps ∈ as ++ as → ps ∈ as := fun h => by rw [List.mem_append, or_self] at h; exact h
  have hedge : ∀ {g}, Edge (as ++ as) g → Edge as g := fun ⟨ps, h1, h2⟩ => ⟨ps, hmem h1, h2⟩
  have hP' : LoosePolygons cfg.eps (as ++ as) := Polygons.loose ⟨fun g h hg hh => hP.nocross g h (hedge hg) (hedge hh), fun g hg => hP.moderate g (hedge hg),
    fun g h hg hh => hP.upright g h (hedge hg) (hedge hh), fun g h hg hh => hP.separated g h (hedge hg) (hedge hh)⟩
  have hB' : BeyondCorners cfg (as ++ as) := fun ps hps => hB ps (hmem hps)
  constructor
  · intro op
    obtain ⟨N, out, h1, -⟩ := C85_crossing again he hpp hsolve hf hP' hB' rule op
    exact ⟨out, N, h1⟩
  · intro op out h x z hx
    classical
    have hx' : Distant cfg.eps (as ++ as) x z := fun ps hps => hx ps (hmem hps)
    rw [h.value he hpp hsolve hf hP' hB' hx']
    by_cases h1 : Encloses rule as x z <;> cases op <;> simp [Combine, h1]

/-- C86, a shape and nothing: union, difference and exclusive or are the shape and the intersection is empty. -/
theorem C86_nothing {again : Nat → Nat → Bool} {rule : FillRule} (he : 0 < cfg.eps) (hpp : Searches cfg.pp) (hsolve : Geom.FindsRoots cfg.solve)
    (hf : OneFirst cfg.first) (hP : LoosePolygons cfg.eps as) (hB : BeyondCorners cfg as) :
    (∀ op, ∃ out, Returns cfg again as [] rule op out) ∧ ∀ op out, Returns cfg again as [] rule op out → ∀ x z, Distant cfg.eps as x z →
      (Encloses rule as x z ∧ op ≠ .intersection → windOut out x z = 1) ∧ (¬ Encloses rule as x z ∨ op = .intersection → windOut out x z = 0) := by
  have hP' : LoosePolygons cfg.eps (as ++ []) := by rw [List.append_nil]; exact hP
  have hB' : BeyondCorners cfg (as ++ []) := by rw [List.append_nil]; exact hB
  have h0 : ∀ x z, ¬ Encloses rule [] x z := by
    intro x z h
    cases rule <;> simp [Encloses, InShape] at h
  constructor
  · intro op
    obtain ⟨N, out, h1, -⟩ := C85_crossing again he hpp hsolve hf hP' hB' rule op
    exact ⟨out, N, h1⟩
  · intro op out h x z hx
    classical
    have hx' : Distant cfg.eps (as ++ []) x z := by rw [List.append_nil]; exact hx
    rw [h.value he hpp hsolve hf hP' hB' hx']
    by_cases h1 : Encloses rule as x z <;> cases op <;> simp [Combine, h1, h0 x z]

/-! ## Non-vacuity -/

/-- The laws hold for two triangles that cross. -/
example : ∃ u i d d' e, Returns Cross.cfg' (fun _ _ => true) [Cross.up] [Fan.kite] .nonZero .union u ∧ Returns Cross.cfg' (fun _ _ => true) [Cross.up] [Fan.kite] .nonZero .intersection i ∧
    Returns Cross.cfg' (fun _ _ => true) [Cross.up] [Fan.kite] .nonZero .difference d ∧ Returns Cross.cfg' (fun _ _ => true) [Fan.kite] [Cross.up] .nonZero .difference d' ∧
    Returns Cross.cfg' (fun _ _ => true) [Cross.up] [Fan.kite] .nonZero .xor e ∧
    ∀ x z, Distant (1 / 100) ([Cross.up] ++ [Fan.kite]) x z → windOut u x z = windOut i x z + windOut d x z + windOut d' x z ∧ windOut e x z = windOut u x z - windOut i x z := by
  have ret : ∀ op, ∃ out, Returns Cross.cfg' (fun _ _ => true) [Cross.up] [Fan.kite] .nonZero op out := fun op => by
    obtain ⟨N, out, h, -⟩ := C85_crossing (cfg := Cross.cfg') (as := [Cross.up]) (bs := [Fan.kite]) (fun _ _ => true) (by norm_num [Cross.cfg', Cross.cfg]) Ex.searches
      (Classical.choose_spec Geom.findsRoots_exists) Cross.oneFirst Fan.loose Fan.beyond .nonZero op
    exact ⟨out, N, h⟩
  obtain ⟨d', hd'⟩ : ∃ out, Returns Cross.cfg' (fun _ _ => true) [Fan.kite] [Cross.up] .nonZero .difference out := by
    obtain ⟨N, out, h, -⟩ := C85_crossing (cfg := Cross.cfg') (as := [Fan.kite]) (bs := [Cross.up]) (fun _ _ => true) (by norm_num [Cross.cfg', Cross.cfg]) Ex.searches
      (Classical.choose_spec Geom.findsRoots_exists) Cross.oneFirst (LoosePolygons.exchange (as := [Cross.up]) (bs := [Fan.kite]) Fan.loose) Fan.beyond.exchange .nonZero .difference
    exact ⟨out, N, h⟩
  obtain ⟨u, hu⟩ := ret .union
  obtain ⟨i, hi⟩ := ret .intersection
  obtain ⟨d, hd⟩ := ret .difference
  obtain ⟨e, hx⟩ := ret .xor
  refine ⟨u, i, d, d', e, hu, hi, hd, hd', hx, fun x z hz => ?_⟩
  have := C86_parts (cfg := Cross.cfg') (as := [Cross.up]) (bs := [Fan.kite]) (by norm_num [Cross.cfg', Cross.cfg]) Ex.searches (Classical.choose_spec Geom.findsRoots_exists)
    Cross.oneFirst Fan.loose Fan.beyond hu hi hd hd' hx hz
  exact ⟨this.2.2.1, this.2.2.2.2⟩

/-- The settings of `Ex.cfg'`, and equal heights are decided by the numbers of the segments. -/
noncomputable def Ex.cfg'' : Cfg := { Ex.cfg' with first := fun i j => decide (i < j) }

/-- A triangle and a square that touches it, together with themselves. -/
example : ∃ out, Returns Ex.cfg'' (fun _ _ => true) ([Ex.triangle] ++ [Ex.square]) ([Ex.triangle] ++ [Ex.square]) .evenOdd .xor out ∧
    ∀ x z, Distant (1 / 10) ([Ex.triangle] ++ [Ex.square]) x z → windOut out x z = 0 := by
  obtain ⟨h1, h2⟩ := C86_self (cfg := Ex.cfg'') (again := fun _ _ => true) (rule := .evenOdd) (by norm_num [Ex.cfg'', Ex.cfg', Ex.cfg]) Ex.searches
    (Classical.choose_spec Geom.findsRoots_exists) Cross.oneFirst Ex.polygons Ex.beyond
  obtain ⟨out, h⟩ := h1 .xor
  exact ⟨out, h, fun x z hx => (h2 _ out h x z hx).2 (.inr (.inr rfl))⟩

/-- Two triangles that cross, and nothing. -/
example : ∃ out, Returns Cross.cfg' (fun _ _ => true) [Cross.up, Fan.kite] [] .evenOdd .intersection out ∧
    ∀ x z, Distant (1 / 100) [Cross.up, Fan.kite] x z → windOut out x z = 0 := by
  obtain ⟨h1, h2⟩ := C86_nothing (cfg := Cross.cfg') (again := fun _ _ => true) (rule := .evenOdd) (by norm_num [Cross.cfg', Cross.cfg]) Ex.searches
    (Classical.choose_spec Geom.findsRoots_exists) Cross.oneFirst Fan.loose Fan.beyond
  obtain ⟨out, h⟩ := h1 .intersection
  exact ⟨out, h, fun x z hx => (h2 _ out h x z hx).2 (.inr rfl)⟩

end Verif.Full
