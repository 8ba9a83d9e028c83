import Verif.Full.Curved
import Verif.Full.CurveExample

/-!
# An example for C90: the two bows
-/

namespace Verif.Full
open Verif.Segs (Segments PathEl)
open Verif.Curve Verif.BinOp
set_option linter.unusedSectionVars false

/-- If all segments that were drawn are stored whole, no curve was cut. -/
theorem unsplit_of_origins {T : Type} {s : Segments ℝ} {tags : List T} {os : List (Segs.Origin ℝ × T)} (hm : Made s tags os) (h : ∀ o ∈ os, o.1.range = (0, 1)) : Unsplit s := by
  intro i hi
  rw [made_len hm] at hi
  have hget := List.getElem?_eq_getElem hi
  have hr := h _ (List.getElem_mem hi)
  obtain ⟨its, e1, -, -, e4, -⟩ := hm.adds
  have h1 : (its.map Segs.Item.origin)[i]? = some os[i].1 := by rw [e1, List.getElem?_map, hget]; rfl
  rw [List.getElem?_map] at h1
  obtain ⟨it, h2, h3⟩ := Option.map_eq_some_iff.1 h1
  rw [← h3] at hr
  have h4 : s.splitFromPredecessor[i]? = some it.split := by rw [e4]; simp [Segments.empty, h2]
  change (s.splitFromPredecessor[i]?).getD (0, 1) = (0, 1)
  rw [h4]
  exact hr

/-- Segments that are near each other at a height are not far apart at that height. -/
theorem near_width {eps w t μ : ℝ} {a b : Geom.Seg} (ha : a.Down) (hb : b.Down) (hμ : 0 ≤ μ) (hsa : a.toCubic.Steep μ) (hsb : b.toCubic.Steep μ)
    (h : Near eps w t a b) (h1 : a.start.y ≤ t ∧ t ≤ a.stop.y) (h2 : b.start.y ≤ t ∧ t ≤ b.stop.y) : |a.atY t - b.atY t| ≤ 3 / 2 * eps + w + 4 * μ * eps := by
  obtain ⟨y0, y1, g1, g2, g3, g4, g5⟩ := h
  have move : ∀ {g : Geom.Seg}, g.Down → g.toCubic.Steep μ → ∀ y, g.start.y ≤ y ∧ y ≤ g.stop.y → g.start.y ≤ t ∧ t ≤ g.stop.y → |y - t| ≤ 2 * eps →
      |g.atY y - g.atY t| ≤ μ * (2 * eps) := by
    intro g hg hs y hy ht hd
    refine le_trans ?_ (mul_le_mul_of_nonneg_left hd hμ)
    rcases le_total t y with hzy | hzy
    · rw [abs_of_nonneg (by linarith : 0 ≤ y - t)]
      exact atY_steep hg hs ht.1 hzy hy.2
    · rw [abs_sub_comm, abs_sub_comm y, abs_of_nonneg (by linarith : 0 ≤ t - y)]
      exact atY_steep hg hs hy.1 hzy ht.2
  have m0 := move ha hsa y0 g1 h1 g3
  have m1 := move hb hsb y1 g2 h2 g4
  rw [abs_le] at m0 m1 g5 ⊢
  constructor <;> linarith [m0.1, m0.2, m1.1, m1.2, g5.1, g5.2]

namespace Bow

theorem ranges_bow {x y h m : ℝ} (hh : 0 < h) : ∀ o ∈ ((pathSegs (bow x y h m)).getD []).flatMap (Segs.segOrigins 0 1 mono), o.range = (0, 1) := by
  rw [segs_bow hh]
  simp [Segs.segOrigins, mono_bow hh, hh.ne']

variable {s : Segments ℝ} {tags : List Bool}

theorem unsplit (hb : buildPaths (tagged thin large) = .ok s tags) : Unsplit s := by
  refine unsplit_of_origins (buildPaths_made hb) ?_
  intro o ho
  simp only [pathOrigins, tagged, List.flatMap_cons, List.flatMap_nil, List.append_nil, List.mem_append, List.mem_map] at ho
  rcases ho with ⟨o', ho, rfl⟩ | ⟨o', ho, rfl⟩
  · exact ranges_bow (by norm_num) o' ho
  · exact ranges_bow (by norm_num) o' ho

/-- Where the pieces are near each other, more exactly. -/
theorem nears' {i j : Nat} (hi : i < 4) (hj : j < 4) (hij : i < j) {t : ℝ} (h : Near (1 / 100) (1 / 5000 + 1 / 5000) t (piece i) (piece j)) :
    (i = 0 ∧ j = 1 ∧ (t < 20 ∨ 2980 < t)) ∨ (i = 0 ∧ j = 3 ∧ (415 < t ∧ t < 465 ∨ 2535 < t ∧ t < 2585)) ∨ (i = 2 ∧ j = 3 ∧ (t < -1480 ∨ 4480 < t)) := by
  have hn := nears hi hj hij h
  obtain ⟨y0, y1, h1, h2, h3, h4, h5⟩ := h
  rw [abs_le] at h3 h4 h5
  rcases hn with ⟨rfl, rfl, hn⟩ | ⟨rfl, rfl, hn⟩ | ⟨rfl, rfl, hn⟩
  · rw [top0, bot0] at h1
    rw [at1, at0 h1.1 h1.2] at h5
    left
    refine ⟨rfl, rfl, ?_⟩
    by_contra hc
    push Not at hc
    have a : 19 ≤ y0 := by linarith
    have b : y0 ≤ 2981 := by linarith
    nlinarith [mul_nonneg (sub_nonneg.2 a) (sub_nonneg.2 b)]
  · rw [top0, bot0] at h1
    rw [at3, at0 h1.1 h1.2] at h5
    right; left
    refine ⟨rfl, rfl, ?_⟩
    have k1 : 416 < y0 := by nlinarith [h5.2]
    have k2 : y0 < 2584 := by nlinarith [h5.2]
    have k3 : y0 < 464 ∨ 2536 < y0 := by
      by_contra hc
      push Not at hc
      nlinarith [mul_nonneg (sub_nonneg.2 hc.1) (sub_nonneg.2 hc.2), h5.1]
    rcases k3 with k3 | k3
    · left; constructor <;> linarith
    · right; constructor <;> linarith
  · rw [top2, bot2] at h1
    rw [at3, at2 h1.1 h1.2] at h5
    right; right
    refine ⟨rfl, rfl, ?_⟩
    by_contra hc
    push Not at hc
    have a : -1481 ≤ y0 := by linarith
    have b : y0 ≤ 4481 := by linarith
    nlinarith [mul_nonneg (sub_nonneg.2 a) (sub_nonneg.2 b)]

/-- The bounds for the bows. -/
theorem mild (hb : buildPaths (tagged thin large) = .ok s tags) : Mild (1 / 100) (fun _ => 1 / 5000) s (1 / 375) (1 / 375) (2 / 125) 50 := by
  obtain ⟨hl, hp⟩ := arena_bows hb
  have lt : ∀ {i}, Slanted s i → i < 4 := fun h => by rw [← hl]; exact h.1
  have near : ∀ {i j t}, i < 4 → j < 4 → i ≠ j → Near (1 / 100) (1 / 5000 + 1 / 5000) t (segAt s i) (segAt s j) →
      ((i = 0 ∧ j = 1 ∨ i = 1 ∧ j = 0) ∧ (t < 20 ∨ 2980 < t)) ∨ ((i = 0 ∧ j = 3 ∨ i = 3 ∧ j = 0) ∧ (415 < t ∧ t < 465 ∨ 2535 < t ∧ t < 2585)) ∨
        ((i = 2 ∧ j = 3 ∨ i = 3 ∧ j = 2) ∧ (t < -1480 ∨ 4480 < t)) := by
    intro i j t hi hj hne h
    rw [hp i hi, hp j hj] at h
    rcases Nat.lt_or_gt_of_ne hne with g | g
    · rcases nears' hi hj g h with ⟨a, b, c⟩ | ⟨a, b, c⟩ | ⟨a, b, c⟩
      · exact Or.inl ⟨Or.inl ⟨a, b⟩, c⟩
      · exact Or.inr (Or.inl ⟨Or.inl ⟨a, b⟩, c⟩)
      · exact Or.inr (Or.inr ⟨Or.inl ⟨a, b⟩, c⟩)
    · rcases nears' hj hi g h.symm with ⟨a, b, c⟩ | ⟨a, b, c⟩ | ⟨a, b, c⟩
      · exact Or.inl ⟨Or.inr ⟨b, a⟩, c⟩
      · exact Or.inr (Or.inl ⟨Or.inr ⟨b, a⟩, c⟩)
      · exact Or.inr (Or.inr ⟨Or.inr ⟨b, a⟩, c⟩)
  have range : ∀ {i t}, Has s t i → (i = 0 ∨ i = 1 → 0 ≤ t ∧ t ≤ 3000) ∧ -1500 ≤ t ∧ t ≤ 4500 := by
    intro i t h
    have h2 := h.2
    have li := lt h.1
    rw [hp i li] at h2
    have : i = 0 ∨ i = 1 ∨ i = 2 ∨ i = 3 := by omega
    rcases this with rfl | rfl | rfl | rfl
    · rw [top0, bot0] at h2; exact ⟨fun _ => h2, by linarith [h2.1], by linarith [h2.2]⟩
    · rw [top1, bot1] at h2; exact ⟨fun _ => h2, by linarith [h2.1], by linarith [h2.2]⟩
    · rw [top2, bot2] at h2; exact ⟨fun h => by omega, h2⟩
    · rw [top3, bot3] at h2; exact ⟨fun h => by omega, h2⟩
  refine ⟨by norm_num, by norm_num, by norm_num, by norm_num, fun i hi => ?_, fun i hi => ?_, ?_, ?_⟩
  · rw [hp i (lt hi)]; exact steep_piece i
  · right; rw [hp i (lt hi)]; exact steep_piece i
  · intro t i j hi hj hc
    have key : i = j ∨ Near (1 / 100) (1 / 5000 + 1 / 5000) t (segAt s i) (segAt s j) := by
      clear hj
      induction hc with
      | refl => exact .inl rfl
      | @tail b c _ h2 ih =>
        by_cases hbc : b = c
        · rwa [← hbc]
        rcases ih with rfl | ih
        · exact .inr h2.2.2
        by_cases hib : i = b
        · subst hib; exact .inr h2.2.2
        left
        have n1 := near (lt hi.1) (lt h2.1.1) hib ih
        have n2 := near (lt h2.1.1) (lt h2.2.1.1) hbc h2.2.2
        have r1 := range hi
        have r2 := range h2.1
        have r3 := range h2.2.1
        rcases n1 with ⟨n1, c1⟩ | ⟨n1, c1⟩ | ⟨n1, c1⟩ <;> rcases n2 with ⟨n2, c2⟩ | ⟨n2, c2⟩ | ⟨n2, c2⟩
        · omega
        · exfalso; rcases c1 with c1 | c1 <;> rcases c2 with ⟨c2, c2'⟩ | ⟨c2, c2'⟩ <;> linarith
        · omega
        · exfalso; rcases c1 with ⟨c1, c1'⟩ | ⟨c1, c1'⟩ <;> rcases c2 with c2 | c2 <;> linarith
        · omega
        · exfalso; rcases c1 with ⟨c1, c1'⟩ | ⟨c1, c1'⟩ <;> rcases c2 with c2 | c2 <;> linarith
        · omega
        · exfalso; rcases c1 with c1 | c1 <;> rcases c2 with ⟨c2, c2'⟩ | ⟨c2, c2'⟩ <;> linarith
        · omega
    rcases key with rfl | key
    · rw [sub_self, abs_zero]; norm_num
    · have h1 := hi.2
      have h2 := hj.2
      rw [hp i (lt hi.1)] at key h1 ⊢
      rw [hp j (lt hj.1)] at key h2 ⊢
      refine (near_width (down_piece i) (down_piece j) (by norm_num) (steep_piece i) (steep_piece j) key h1 h2).trans ?_
      norm_num
  · intro i j u v hne _ huv h
    have hu := h u le_rfl huv
    have hv := h v huv le_rfl
    have li := lt hu.1.1
    have lj := lt hu.2.1.1
    have n1 := near li lj hne hu.2.2
    have n2 := near li lj hne hv.2.2
    have ru := range hu.1
    have rv := range hv.1
    have ru' := range hu.2.1
    have rv' := range hv.2.1
    have mid : u ≤ 1500 → 1500 ≤ v → False := by
      intro a b
      rcases near li lj hne (h 1500 a b).2.2 with ⟨_, c⟩ | ⟨_, c⟩ | ⟨_, c⟩ <;> norm_num at c
    by_contra hc
    push Not at hc
    rcases n1 with ⟨m1, c1⟩ | ⟨m1, c1⟩ | ⟨m1, c1⟩ <;> rcases n2 with ⟨m2, c2⟩ | ⟨m2, c2⟩ | ⟨m2, c2⟩
    · have := ru.1 (by omega)
      have := rv.1 (by omega)
      rcases c1 with c1 | c1 <;> rcases c2 with c2 | c2
      · linarith
      · exact mid (by linarith) (by linarith)
      · linarith
      · linarith
    · omega
    · omega
    · omega
    · rcases c1 with ⟨c1, c1'⟩ | ⟨c1, c1'⟩ <;> rcases c2 with ⟨c2, c2'⟩ | ⟨c2, c2'⟩
      · linarith
      · exact mid (by linarith) (by linarith)
      · linarith
      · linarith
    · omega
    · omega
    · omega
    · rcases c1 with c1 | c1 <;> rcases c2 with c2 | c2
      · linarith
      · exact mid (by linarith) (by linarith)
      · linarith
      · linarith

theorem beyond (hb : buildPaths (tagged thin large) = .ok s tags) : Beyond Cross.cfg' s := by
  obtain ⟨hl, hp⟩ := arena_bows hb
  intro i hi p hon
  have li : i < 4 := by rw [← hl]; exact hi
  rw [hp i li] at hon
  have hy := (piece i).on_y (down_piece i) p hon
  have hx := ((piece i).on_iff (down_piece i) p.y p.x hy.1 hy.2).1 hon
  change -100 ≤ p.x ∧ p.x ≤ 100
  rw [hx]
  have := bound_piece i p.y hy.1 hy.2
  rw [abs_le] at this
  constructor <;> linarith

/-- All boolean operations on the two bows return, and the returned paths (with curves) are right up to 7/20. -/
theorem bow_paths (again : Nat → Nat → Bool) (rule : FillRule) (op : Op) : ∃ s tags N out, buildPaths (tagged thin large) = .ok s tags ∧
    (∀ fuel, N ≤ fuel → binaryOpPaths Cross.cfg' again thin large rule op fuel = .ok out) ∧ RightCurves (1 / 100) (driftOf (1 / 100) (1 / 375) (1 / 375) (2 / 125) 50) s thin large rule op out := by
  obtain ⟨s, tags, hb⟩ := built
  obtain ⟨hl, hp⟩ := arena_bows hb
  have lt : ∀ {i}, Slanted s i → i < 4 := fun h => by rw [← hl]; exact h.1
  obtain ⟨N, out, h1, h2⟩ := C90_curves (cfg := Cross.cfg') (ρ := fun _ => 1 / 5000) again (by norm_num [Cross.cfg, Cross.cfg']) Ex.searches (Classical.choose_spec Geom.findsRoots_exists)
    Cross.oneFirst hb (unsplit hb) (loose hb)
    (tight_of_steep (buildPaths_arena hb) (by norm_num [Cross.cfg, Cross.cfg']) (σ := fun _ => 1 / 375) (fun i hi => by rw [hp i (lt hi)]; exact ⟨by norm_num, steep_piece i⟩)
      (fun i j _ _ _ => by norm_num [Cross.cfg', Cross.cfg])) (beyond hb) (mild hb) (fun i _ => by norm_num [Cross.cfg', Cross.cfg]) rule op
  exact ⟨s, tags, N, out, hb, h1, h2⟩

theorem drift_le : driftOf (1 / 100) (1 / 375) (1 / 375) (2 / 125) 50 < 2 / 5 := by norm_num [driftOf]

theorem outside (hb : buildPaths (tagged thin large) = .ok s tags) {x : ℝ} (h : x = 5 / 2 ∨ x = -1) :
    Outside (driftOf (1 / 100) (1 / 375) (1 / 375) (2 / 125) 50) s x 1500 := by
  obtain ⟨hl, hp⟩ := arena_bows hb
  intro i hi
  have li : i < 4 := by rw [← hl]; exact hi.1.1
  refine drift_le.trans ?_
  rw [hp i li, lt_abs]
  have : i = 0 ∨ i = 1 ∨ i = 2 ∨ i = 3 := by omega
  rcases this with rfl | rfl | rfl | rfl
  · rw [at0 (by norm_num) (by norm_num)]; rcases h with rfl | rfl <;> norm_num
  · rw [at1]; rcases h with rfl | rfl <;> norm_num
  · rw [at2 (by norm_num) (by norm_num)]; rcases h with rfl | rfl <;> norm_num
  · rw [at3]; rcases h with rfl | rfl <;> norm_num

/-- The symmetric difference of the two bows, as returned: a point between the two curves is inside, a point to the left of both is not. -/
theorem xor_of_bows (again : Nat → Nat → Bool) : ∃ N out, (∀ fuel, N ≤ fuel → binaryOpPaths Cross.cfg' again thin large .evenOdd .xor fuel = .ok out) ∧
    windOut out (5 / 2) 1500 = 1 ∧ windOut out (-1) 1500 = 0 := by
  obtain ⟨s, tags, N, out, hb, h1, h2⟩ := bow_paths again .evenOdd .xor
  refine ⟨N, out, h1, ?_, ?_⟩
  · refine (h2.winding (5 / 2) 1500 (outside hb (.inl rfl))).1 ?_
    rw [thin, large, wind_bow (by norm_num), wind_bow (by norm_num)]
    norm_num [Combine, InShape]
  · refine (h2.winding (-1) 1500 (outside hb (.inr rfl))).2 ?_
    rw [thin, large, wind_bow (by norm_num), wind_bow (by norm_num)]
    norm_num [Combine, InShape]

end Bow

end Verif.Full
