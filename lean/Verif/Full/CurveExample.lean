import Verif.Full.Curves
import Verif.Full.Accept
import Verif.Full.LooseExample

/-!
# Two bows that cross
-/

namespace Verif.Full
open Verif.Segs (Segments PathEl)
open Verif.Curve Verif.BinOp
set_option linter.unusedSectionVars false

namespace Bow

/-- A bow: a curve from `(x, y)` to `(x, y + 3 h)` that bulges to the right by `m`, and the string back. -/
noncomputable def bow (x y h m : ℝ) : List (PathEl ℝ) :=
  [.moveTo ⟨x, y⟩, .curveTo ⟨x + 4 / 3 * m, y + h⟩ ⟨x + 4 / 3 * m, y + 2 * h⟩ ⟨x, y + 3 * h⟩, .closePath]

/-- Its curve. -/
noncomputable def arc (x y h m : ℝ) : Segs.Seg ℝ := .cubic ⟨x, y⟩ ⟨x + 4 / 3 * m, y + h⟩ ⟨x + 4 / 3 * m, y + 2 * h⟩ ⟨x, y + 3 * h⟩
/-- Its string. -/
noncomputable def string (x y h : ℝ) : Segs.Seg ℝ := .line ⟨x, y⟩ ⟨x, y + 3 * h⟩

variable {x y h m : ℝ}

theorem sub_bow : Segs.subpaths (bow x y h m) = [bow x y h m] := by simp [Segs.subpaths, Segs.takeSubpath, bow]

theorem verdict_bow : verdict (bow x y h m) = .closed := by simp [verdict, pen, target, bow]

theorem segs_bow (hh : 0 < h) : pathSegs (bow x y h m) = some [.cubic ⟨x, y⟩ ⟨x + 4 / 3 * m, y + h⟩ ⟨x + 4 / 3 * m, y + 2 * h⟩ ⟨x, y + 3 * h⟩, .line ⟨x, y + 3 * h⟩ ⟨x, y⟩] := by
  unfold pathSegs
  rw [sub_bow]
  simp [bow, Segs.allSome, Segs.kurboSegments, Segs.kurboStep, hh.ne']

theorem arc_mono (hh : 0 < h) : (cubic ⟨⟨x, y⟩, ⟨x + 4 / 3 * m, y + h⟩, ⟨x + 4 / 3 * m, y + 2 * h⟩, ⟨x, y + 3 * h⟩⟩).Mono := by
  refine ⟨by simp only [cubic, pt]; linarith, fun t _ _ => ?_⟩
  simp only [cubic, pt, Geom.Cubic.derivAt, Geom.Cubic.deriv, Geom.bez2]
  nlinarith

theorem mono_bow (hh : 0 < h) : mono (.cubic ⟨x, y⟩ ⟨x + 4 / 3 * m, y + h⟩ ⟨x + 4 / 3 * m, y + 2 * h⟩ ⟨x, y + 3 * h⟩) =
    [(⟨⟨x, y⟩, ⟨x + 4 / 3 * m, y + h⟩, ⟨x + 4 / 3 * m, y + 2 * h⟩, ⟨x, y + 3 * h⟩⟩, 0, 1)] := by
  have hr : Geom.speedRoots (toCubic (.cubic ⟨x, y⟩ ⟨x + 4 / 3 * m, y + h⟩ ⟨x + 4 / 3 * m, y + 2 * h⟩ ⟨x, y + 3 * h⟩)) = [] := by
    have e1 : (y + h - y - (y + 2 * h - (y + h)) * 2 + (y + 3 * h - (y + 2 * h))) = 0 := by ring
    have e2 : (y + 2 * h - (y + h) - (y + h - y)) * 2 = 0 := by ring
    unfold Geom.speedRoots
    dsimp only
    exact (if_pos e1).trans (if_pos e2)
  have hs : (toCubic (.cubic ⟨x, y⟩ ⟨x + 4 / 3 * m, y + h⟩ ⟨x + 4 / 3 * m, y + 2 * h⟩ ⟨x, y + 3 * h⟩)).subsegment 0 1 =
      cubic ⟨⟨x, y⟩, ⟨x + 4 / 3 * m, y + h⟩, ⟨x + 4 / 3 * m, y + 2 * h⟩, ⟨x, y + 3 * h⟩⟩ := by
    simp only [Geom.Cubic.subsegment, toCubic, cubic, pt, Geom.Cubic.eval, Geom.Cubic.derivAt, Geom.Cubic.deriv, Geom.bez2, Geom.bez3, Geom.Cubic.mk.injEq, Geom.Pt.mk.injEq]
    refine ⟨⟨?_, ?_⟩, ⟨?_, ?_⟩, ⟨?_, ?_⟩, ⟨?_, ?_⟩⟩ <;> ring
  unfold mono Geom.monotonicPieces
  rw [hr]
  simp only [Geom.piecesFrom, Geom.pieceOf]
  rw [hs, Geom.forceMonotonic_mono (arc_mono hh)]
  simp [uncubic, cubic, unpt, pt]

theorem origins_bow (hh : 0 < h) : (((pathSegs (bow x y h m)).getD []).flatMap (Segs.segOrigins 0 1 mono)).map (·.curve) = [arc x y h m, (string x y h).rev] := by
  rw [segs_bow hh]
  simp [Segs.segOrigins, mono_bow hh, hh.ne', arc, string, Segs.Seg.rev]

theorem at_string (z : ℝ) : atY (string x y h) z = x := by
  simp only [atY, string, seg, pt, Geom.Seg.atY, Geom.Seg.Horizontal]
  split_ifs <;> simp

theorem arc_down (hh : 0 < h) : (seg (arc x y h m)).Down := arc_mono hh

theorem at_arc (hh : 0 < h) {z : ℝ} (h0 : y ≤ z) (h1 : z ≤ y + 3 * h) : atY (arc x y h m) z = x + 4 * m * ((z - y) / (3 * h) * (1 - (z - y) / (3 * h))) := by
  have hd := arc_down (x := x) (y := y) (m := m) hh
  refine ((toCubic_at_iff hd (x := x + 4 * m * ((z - y) / (3 * h) * (1 - (z - y) / (3 * h)))) (t := z)).1 ⟨(z - y) / (3 * h), ?_, ?_, ?_⟩).2.2.symm
  · exact div_nonneg (by linarith) (by linarith)
  · rw [div_le_one (by linarith)]; linarith
  · have e : z = y + 3 * h * ((z - y) / (3 * h)) := by field_simp; ring
    obtain ⟨w, hw⟩ : ∃ w, w = (z - y) / (3 * h) := ⟨_, rfl⟩
    rw [← hw] at e ⊢
    simp only [arc, seg, Geom.Seg.toCubic, pt, Geom.Cubic.eval, Geom.bez3, Geom.Pt.mk.injEq]
    exact ⟨by ring, by rw [e]; ring⟩

theorem cross_arc (hh : 0 < h) (u z : ℝ) : cross (arc x y h m) u z = if y ≤ z ∧ z < y + 3 * h ∧ x + 4 * m * ((z - y) / (3 * h) * (1 - (z - y) / (3 * h))) < u then 1 else 0 := by
  have e1 : (arc x y h m).start.y = y := rfl
  have e2 : (arc x y h m).stop.y = y + 3 * h := rfl
  have n : ∀ p : Prop, ¬ (y + 3 * h ≤ z ∧ z < y ∧ p) := fun p g => by linarith [g.1, g.2.1]
  simp only [cross, e1, e2, n, if_false]
  refine if_congr ?_ rfl rfl
  constructor <;> rintro ⟨g1, g2, g3⟩
  · rw [at_arc hh g1 g2.le] at g3; exact ⟨g1, g2, g3⟩
  · rw [← at_arc hh g1 g2.le] at g3; exact ⟨g1, g2, g3⟩

theorem cross_string (hh : 0 < h) (u z : ℝ) : cross (string x y h).rev u z = if y ≤ z ∧ z < y + 3 * h ∧ x < u then -1 else 0 := by
  have e1 : (string x y h).rev.start.y = y + 3 * h := rfl
  have e2 : (string x y h).rev.stop.y = y := rfl
  have e3 : (string x y h).rev.rev = string x y h := rfl
  have n : ∀ p : Prop, ¬ (y + 3 * h ≤ z ∧ z < y ∧ p) := fun p g => by linarith [g.1, g.2.1]
  simp only [cross, e1, e2, e3, n, if_false, at_string]

/-- The winding number of a bow. -/
theorem wind_bow (hh : 0 < h) (u z : ℝ) : windPath (bow x y h m) u z =
    (if y ≤ z ∧ z < y + 3 * h ∧ x + 4 * m * ((z - y) / (3 * h) * (1 - (z - y) / (3 * h))) < u then 1 else 0) + (if y ≤ z ∧ z < y + 3 * h ∧ x < u then -1 else 0) := by
  have e : windPath (bow x y h m) u z = (((((pathSegs (bow x y h m)).getD []).flatMap (Segs.segOrigins 0 1 mono)).map (·.curve)).map fun g => cross g u z).sum := by
    rw [List.map_map]; rfl
  rw [e, origins_bow hh]
  simp only [List.map_cons, List.map_nil, List.sum_cons, List.sum_nil, add_zero, cross_arc hh, cross_string hh]

/-! ## Two of them -/

/-- A thin bow. -/
noncomputable def thin : List (PathEl ℝ) := bow 0 0 1000 1
/-- A large bow whose string crosses the curve of the thin one twice. -/
noncomputable def large : List (PathEl ℝ) := bow (1 / 2) (-1500) 2000 4

/-- The segments, by number. -/
noncomputable def piece : Nat → Geom.Seg
  | 0 => seg (arc 0 0 1000 1)
  | 1 => seg (string 0 0 1000)
  | 2 => seg (arc (1 / 2) (-1500) 2000 4)
  | _ => seg (string (1 / 2) (-1500) 2000)

theorem at0 {z : ℝ} (h0 : 0 ≤ z) (h1 : z ≤ 3000) : (piece 0).atY z = 4 * (z / 3000 * (1 - z / 3000)) := by
  have := at_arc (x := 0) (y := 0) (h := 1000) (m := 1) (by norm_num) h0 (by linarith)
  change atY (arc 0 0 1000 1) z = _
  rw [this]; norm_num
theorem at1 (z : ℝ) : (piece 1).atY z = 0 := at_string (x := 0) (y := 0) (h := 1000) z
theorem at2 {z : ℝ} (h0 : -1500 ≤ z) (h1 : z ≤ 4500) : (piece 2).atY z = 1 / 2 + 16 * ((z + 1500) / 6000 * (1 - (z + 1500) / 6000)) := by
  have := at_arc (x := 1 / 2) (y := -1500) (h := 2000) (m := 4) (by norm_num) h0 (by linarith)
  change atY (arc (1 / 2) (-1500) 2000 4) z = _
  rw [this]; norm_num
theorem at3 (z : ℝ) : (piece 3).atY z = 1 / 2 := at_string (x := 1 / 2) (y := -1500) (h := 2000) z

theorem top0 : (piece 0).start.y = 0 := rfl
theorem top1 : (piece 1).start.y = 0 := rfl
theorem top2 : (piece 2).start.y = -1500 := rfl
theorem top3 : (piece 3).start.y = -1500 := rfl
theorem bot0 : (piece 0).stop.y = 3000 := by change (0 : ℝ) + 3 * 1000 = 3000; norm_num
theorem bot1 : (piece 1).stop.y = 3000 := by change (0 : ℝ) + 3 * 1000 = 3000; norm_num
theorem bot2 : (piece 2).stop.y = 4500 := by change (-1500 : ℝ) + 3 * 2000 = 4500; norm_num
theorem bot3 : (piece 3).stop.y = 4500 := by change (-1500 : ℝ) + 3 * 2000 = 4500; norm_num

theorem down_piece (i : Nat) : (piece i).Down := by
  rcases i with _ | _ | _ | i
  · exact arc_down (by norm_num)
  · change (0 : ℝ) < 0 + 3 * 1000; norm_num
  · exact arc_down (by norm_num)
  · change (-1500 : ℝ) < -1500 + 3 * 2000; norm_num

/-- A segment of an arena, from where it comes from. -/
theorem seg_of {s : Segments ℝ} {tags : List Bool} {os : List (Segs.Origin ℝ × Bool)} (ha : Arena s tags) (hm : Made s tags os) {i : Nat} {g : Segs.Seg ℝ} (hlt : g.start.y < g.stop.y)
    (hi : (os.map (·.1.curve))[i]? = some g ∨ (os.map (·.1.curve))[i]? = some g.rev) : segAt s i = seg g := by
  have key : ∀ c, (os.map (·.1.curve))[i]? = some c → ∃ k, s.segs[i]? = some k ∧ (c = k ∨ c = k.rev) := by
    intro c hc
    rw [List.getElem?_map] at hc
    obtain ⟨⟨o, t⟩, h1, rfl⟩ := Option.map_eq_some_iff.1 hc
    obtain ⟨k, b, h2, -, h3, -⟩ := made_get hm h1
    refine ⟨k, h2, ?_⟩
    cases b
    · exact Or.inr (by simpa using h3)
    · exact Or.inl (by simpa using h3)
  have hk : ∃ k, s.segs[i]? = some k ∧ (g = k ∨ g = k.rev) := by
    rcases hi with hi | hi
    · exact key _ hi
    · obtain ⟨k, h1, h2⟩ := key _ hi
      refine ⟨k, h1, ?_⟩
      rcases h2 with h2 | h2
      · right; rw [← h2, rev_rev]
      · left; rw [← rev_rev g, h2, rev_rev]
  obtain ⟨k, h1, h2⟩ := hk
  have hf := (ha.fine k (List.mem_of_getElem? h1)).1
  have : g = k := by
    rcases h2 with h2 | h2
    · exact h2
    · exfalso
      rw [h2, rev_start, rev_stop] at hlt
      unfold Segs.Pt.le at hf
      rcases hf with hf | hf
      · rcases hf with hf | hf
        · linarith
        · linarith [hf.1]
      · rw [hf] at hlt; exact lt_irrefl _ hlt
  unfold segAt
  rw [h1, this]

variable {s : Segments ℝ} {tags : List Bool}

theorem arena_bows (hb : buildPaths (tagged thin large) = .ok s tags) : s.len = 4 ∧ ∀ i < 4, segAt s i = piece i := by
  have hm := buildPaths_made hb
  have ha := buildPaths_arena hb
  have e : (pathOrigins (tagged thin large)).map (·.1.curve) = [arc 0 0 1000 1, (string 0 0 1000).rev, arc (1 / 2) (-1500) 2000 4, (string (1 / 2) (-1500) 2000).rev] := by
    have o1 := origins_bow (x := 0) (y := 0) (h := 1000) (m := 1) (by norm_num)
    have o2 := origins_bow (x := 1 / 2) (y := -1500) (h := 2000) (m := 4) (by norm_num)
    simp only [pathOrigins, tagged, List.flatMap_cons, List.flatMap_nil, List.append_nil, List.map_append, List.map_map]
    change List.map Segs.Origin.curve _ ++ List.map Segs.Origin.curve _ = _
    unfold thin large
    rw [o1, o2]; rfl
  have hl : s.len = 4 := by
    rw [made_len hm]
    have := congrArg List.length e
    simpa using this
  refine ⟨hl, fun i hi => ?_⟩
  have hlt1 : (0 : ℝ) < 0 + 3 * 1000 := by norm_num
  have hlt2 : (-1500 : ℝ) < -1500 + 3 * 2000 := by norm_num
  rcases i with _ | _ | _ | _ | i
  · exact seg_of ha hm (g := arc 0 0 1000 1) hlt1 (Or.inl (by rw [e]; rfl))
  · exact seg_of ha hm (g := string 0 0 1000) hlt1 (Or.inr (by rw [e]; rfl))
  · exact seg_of ha hm (g := arc (1 / 2) (-1500) 2000 4) hlt2 (Or.inl (by rw [e]; rfl))
  · exact seg_of ha hm (g := string (1 / 2) (-1500) 2000) hlt2 (Or.inr (by rw [e]; rfl))
  · omega

theorem built : ∃ s tags, buildPaths (tagged thin large) = .ok s tags := by
  refine C82_closed ?_
  intro p hp sub hsub
  simp only [tagged, List.mem_cons, List.not_mem_nil, or_false] at hp
  rcases hp with rfl | rfl <;> simp only [thin, large, sub_bow, List.mem_singleton] at hsub <;> subst hsub <;> exact verdict_bow

theorem thin_low {z : ℝ} (h : 4 * (z / 3000 * (1 - z / 3000)) ≤ 11 / 200) : z < 90 ∨ 3000 - 90 < z := by
  by_contra hc
  push Not at hc
  nlinarith [mul_nonneg (sub_nonneg.2 hc.1) (sub_nonneg.2 hc.2)]

theorem thin_mid {z : ℝ} (h0 : 0 ≤ z) (h1 : z ≤ 3000) (h : 1 / 2 - 11 / 200 ≤ 4 * (z / 3000 * (1 - z / 3000))) : 330 < z ∧ z < 3000 - 330 := by
  constructor <;> nlinarith

theorem thin_range {z : ℝ} (h0 : 0 ≤ z) (h1 : z ≤ 3000) : 0 ≤ 4 * (z / 3000 * (1 - z / 3000)) ∧ 4 * (z / 3000 * (1 - z / 3000)) ≤ 1 := by
  constructor
  · have : 0 ≤ z / 3000 := by linarith
    have : 0 ≤ 1 - z / 3000 := by linarith
    positivity
  · nlinarith [sq_nonneg (z - 1500)]

theorem large_low {z : ℝ} (h : 16 * ((z + 1500) / 6000 * (1 - (z + 1500) / 6000)) ≤ 11 / 200) : z < -1410 ∨ 4410 < z := by
  by_contra hc
  push Not at hc
  nlinarith [mul_nonneg (sub_nonneg.2 hc.1) (sub_nonneg.2 hc.2)]

theorem large_range {z : ℝ} (h0 : -1500 ≤ z) (h1 : z ≤ 4500) : 0 ≤ 16 * ((z + 1500) / 6000 * (1 - (z + 1500) / 6000)) ∧ 16 * ((z + 1500) / 6000 * (1 - (z + 1500) / 6000)) ≤ 4 := by
  constructor
  · have : 0 ≤ (z + 1500) / 6000 := by linarith
    have : 0 ≤ 1 - (z + 1500) / 6000 := by linarith
    positivity
  · nlinarith [sq_nonneg (z - 1500)]

theorem large_mid {z : ℝ} (h0 : -100 ≤ z) (h1 : z ≤ 3100) : 2 ≤ 16 * ((z + 1500) / 6000 * (1 - (z + 1500) / 6000)) := by
  nlinarith [mul_nonneg (sub_nonneg.2 h0) (sub_nonneg.2 h1)]

/-- Only these are near each other, and only there. -/
theorem nears {i j : Nat} (hi : i < 4) (hj : j < 4) (hij : i < j) {t : ℝ} (h : Near (1 / 100) (1 / 5000 + 1 / 5000) t (piece i) (piece j)) :
    (i = 0 ∧ j = 1 ∧ (t < 100 ∨ 2900 < t)) ∨ (i = 0 ∧ j = 3 ∧ 300 < t ∧ t < 2700) ∨ (i = 2 ∧ j = 3 ∧ (t < -1400 ∨ 4400 < t)) := by
  obtain ⟨y0, y1, h1, h2, h3, h4, h5⟩ := h
  rw [abs_le] at h3 h4 h5
  have hc : (i = 0 ∧ j = 1) ∨ (i = 0 ∧ j = 2) ∨ (i = 0 ∧ j = 3) ∨ (i = 1 ∧ j = 2) ∨ (i = 1 ∧ j = 3) ∨ (i = 2 ∧ j = 3) := by omega
  rcases hc with ⟨rfl, rfl⟩ | ⟨rfl, rfl⟩ | ⟨rfl, rfl⟩ | ⟨rfl, rfl⟩ | ⟨rfl, rfl⟩ | ⟨rfl, rfl⟩
  · rw [top0, bot0] at h1
    rw [at1, at0 h1.1 h1.2] at h5
    left
    refine ⟨rfl, rfl, ?_⟩
    rcases thin_low (z := y0) (by linarith) with g | g
    · left; linarith
    · right; linarith
  · exfalso
    rw [top0, bot0] at h1
    rw [top2, bot2] at h2
    rw [at2 h2.1 h2.2, at0 h1.1 h1.2] at h5
    linarith [thin_range h1.1 h1.2, large_mid (z := y1) (by linarith) (by linarith)]
  · rw [top0, bot0] at h1
    rw [at3, at0 h1.1 h1.2] at h5
    right; left
    obtain ⟨g1, g2⟩ := thin_mid h1.1 h1.2 (by linarith)
    exact ⟨rfl, rfl, by linarith, by linarith⟩
  · exfalso
    rw [top2, bot2] at h2
    rw [at2 h2.1 h2.2, at1] at h5
    linarith [large_range h2.1 h2.2]
  · exfalso
    rw [at3, at1] at h5
    linarith
  · rw [top2, bot2] at h1
    rw [at3, at2 h1.1 h1.2] at h5
    right; right
    refine ⟨rfl, rfl, ?_⟩
    rcases large_low (z := y0) (by linarith) with g | g
    · left; linarith
    · right; linarith

theorem peaceful_of_le {eps w : ℝ} {a b : Geom.Seg} (h : ∀ t, a.start.y ≤ t → t ≤ a.stop.y → b.start.y ≤ t → t ≤ b.stop.y → a.atY t ≤ b.atY t) (hc : Cleared eps w a b) :
    Peaceful eps w a b := by
  have : ¬ LeftOf b a := fun ⟨t, h1, h2, h3⟩ => absurd (h t h2.1 h2.2 h1.1 h1.2) (not_le.2 h3)
  exact ⟨fun _ => ⟨this, hc⟩, fun g => absurd g this⟩

theorem cleared_mid {i j : Nat} (hi : (piece i).start.y ≤ 0 ∧ 3000 ≤ (piece i).stop.y) (hj : (piece j).start.y ≤ 0 ∧ 3000 ≤ (piece j).stop.y)
    (h : ∀ y0 y1, 1400 ≤ y0 → y0 ≤ 1600 → 1400 ≤ y1 → y1 ≤ 1600 → (piece i).atY y0 + 1 / 10 < (piece j).atY y1) : Cleared (1 / 100) (1 / 5000 + 1 / 5000) (piece i) (piece j) := by
  left
  refine ⟨1500, max_lt (by linarith [hi.1]) (by linarith [hj.1]), le_min (by linarith [hi.2]) (by linarith [hj.2]), ?_⟩
  intro y0 y1 _ _ _ _ h1 h2
  rw [abs_le] at h1 h2
  have := h y0 y1 (by linarith) (by linarith) (by linarith) (by linarith)
  linarith

theorem thin_top {z : ℝ} (h0 : 1400 ≤ z) (h1 : z ≤ 1600) : 1 / 2 < 4 * (z / 3000 * (1 - z / 3000)) := by
  nlinarith [mul_nonneg (sub_nonneg.2 h0) (sub_nonneg.2 h1)]

theorem low0 : (piece 0).start.y ≤ 0 ∧ 3000 ≤ (piece 0).stop.y := by rw [top0, bot0]; norm_num
theorem low1 : (piece 1).start.y ≤ 0 ∧ 3000 ≤ (piece 1).stop.y := by rw [top1, bot1]; norm_num
theorem low2 : (piece 2).start.y ≤ 0 ∧ 3000 ≤ (piece 2).stop.y := by rw [top2, bot2]; norm_num
theorem low3 : (piece 3).start.y ≤ 0 ∧ 3000 ≤ (piece 3).stop.y := by rw [top3, bot3]; norm_num

/-- Only the curve of the thin bow and the string of the large one cross. -/
theorem peace {i j : Nat} (hi : i < 4) (hj : j < 4) (hij : i < j) (h : ¬ Peaceful (1 / 100) (1 / 5000 + 1 / 5000) (piece i) (piece j)) : i = 0 ∧ j = 3 := by
  have hc : (i = 0 ∧ j = 1) ∨ (i = 0 ∧ j = 2) ∨ (i = 0 ∧ j = 3) ∨ (i = 1 ∧ j = 2) ∨ (i = 1 ∧ j = 3) ∨ (i = 2 ∧ j = 3) := by omega
  rcases hc with ⟨rfl, rfl⟩ | ⟨rfl, rfl⟩ | ⟨rfl, rfl⟩ | ⟨rfl, rfl⟩ | ⟨rfl, rfl⟩ | ⟨rfl, rfl⟩
  · refine absurd (Peaceful.symm (peaceful_of_le ?_ (cleared_mid low1 low0 ?_))) h
    · intro t _ _ h0 h1
      rw [top0] at h0; rw [bot0] at h1
      rw [at1, at0 h0 h1]; exact (thin_range h0 h1).1
    · intro y0 y1 _ _ h0 h1
      rw [at1, at0 (by linarith) (by linarith)]; linarith [thin_top h0 h1]
  · refine absurd (peaceful_of_le ?_ (cleared_mid low0 low2 ?_)) h
    · intro t h0 h1 h2 h3
      rw [top0] at h0; rw [bot0] at h1; rw [top2] at h2; rw [bot2] at h3
      rw [at0 h0 h1, at2 h2 h3]; linarith [(thin_range h0 h1).2, large_mid (z := t) (by linarith) (by linarith)]
    · intro y0 y1 g0 g1 h0 h1
      rw [at0 (by linarith) (by linarith), at2 (by linarith) (by linarith)]
      linarith [(thin_range (z := y0) (by linarith) (by linarith)).2, large_mid (z := y1) (by linarith) (by linarith)]
  · exact ⟨rfl, rfl⟩
  · refine absurd (peaceful_of_le ?_ (cleared_mid low1 low2 ?_)) h
    · intro t h0 h1 h2 h3
      rw [top2] at h2; rw [bot2] at h3
      rw [at1, at2 h2 h3]; linarith [(large_range h2 h3).1]
    · intro y0 y1 g0 g1 h0 h1
      rw [at1, at2 (by linarith) (by linarith)]
      linarith [large_mid (z := y1) (by linarith) (by linarith)]
  · refine absurd (peaceful_of_le ?_ (cleared_mid low1 low3 ?_)) h
    · intro t _ _ _ _
      rw [at1, at3]; norm_num
    · intro y0 y1 _ _ _ _
      rw [at1, at3]; norm_num
  · refine absurd (Peaceful.symm (peaceful_of_le ?_ (cleared_mid low3 low2 ?_))) h
    · intro t _ _ h2 h3
      rw [top2] at h2; rw [bot2] at h3
      rw [at3, at2 h2 h3]; linarith [(large_range h2 h3).1]
    · intro y0 y1 _ _ h0 h1
      rw [at3, at2 (by linarith) (by linarith)]
      linarith [large_mid (z := y1) (by linarith) (by linarith)]

theorem steep_piece (i : Nat) : (piece i).toCubic.Steep (1 / 375) := by
  rcases i with _ | _ | _ | i <;>
    simp only [piece, arc, string, seg, Geom.Seg.toCubic, pt, Geom.Cubic.Steep] <;> norm_num [abs_le]

theorem bound_piece (i : Nat) (z : ℝ) (h0 : (piece i).start.y ≤ z) (h1 : z ≤ (piece i).stop.y) : |(piece i).atY z| ≤ 5 := by
  rw [abs_le]
  rcases i with _ | _ | _ | i
  · rw [top0] at h0; rw [bot0] at h1
    rw [at0 h0 h1]; constructor <;> linarith [thin_range h0 h1]
  · rw [at1]; norm_num
  · rw [top2] at h0; rw [bot2] at h1
    rw [at2 h0 h1]; constructor <;> linarith [large_range h0 h1]
  · change -5 ≤ (piece 3).atY z ∧ (piece 3).atY z ≤ 5
    rw [at3]; norm_num

theorem gentle_piece (i : Nat) : Gentle (1 / 100) (1 / 5000) (piece i) :=
  Gentle.of_steep (B := 5) (by norm_num) (down_piece i) (steep_piece i) (by norm_num) (bound_piece i) (by norm_num [Geom.roughness])

/-- The two bows are in general position. -/
theorem loose (hb : buildPaths (tagged thin large) = .ok s tags) : LooseCurves (1 / 100) (fun _ => 1 / 5000) s := by
  obtain ⟨hl, hp⟩ := arena_bows hb
  have lt : ∀ {i}, Slanted s i → i < 4 := fun h => by rw [← hl]; exact h.1
  have near : ∀ {i j t}, i < 4 → j < 4 → i ≠ j → Near (1 / 100) (1 / 5000 + 1 / 5000) t (segAt s i) (segAt s j) →
      ((i = 0 ∧ j = 1 ∨ i = 1 ∧ j = 0) ∧ (t < 100 ∨ 2900 < t)) ∨ ((i = 0 ∧ j = 3 ∨ i = 3 ∧ j = 0) ∧ 300 < t ∧ t < 2700) ∨ ((i = 2 ∧ j = 3 ∨ i = 3 ∧ j = 2) ∧ (t < -1400 ∨ 4400 < t)) := by
    intro i j t hi hj hne h
    rw [hp i hi, hp j hj] at h
    rcases Nat.lt_or_gt_of_ne hne with g | g
    · rcases nears hi hj g h with ⟨a, b, c⟩ | ⟨a, b, c⟩ | ⟨a, b, c⟩
      · exact Or.inl ⟨Or.inl ⟨a, b⟩, c⟩
      · exact Or.inr (Or.inl ⟨Or.inl ⟨a, b⟩, c⟩)
      · exact Or.inr (Or.inr ⟨Or.inl ⟨a, b⟩, c⟩)
    · rcases nears hj hi g h.symm with ⟨a, b, c⟩ | ⟨a, b, c⟩ | ⟨a, b, c⟩
      · exact Or.inl ⟨Or.inr ⟨b, a⟩, c⟩
      · exact Or.inr (Or.inl ⟨Or.inr ⟨b, a⟩, c⟩)
      · exact Or.inr (Or.inr ⟨Or.inr ⟨b, a⟩, c⟩)
  have war : ∀ {i j}, i < 4 → j < 4 → i ≠ j → ¬ Peaceful (1 / 100) (1 / 5000 + 1 / 5000) (segAt s i) (segAt s j) → (i = 0 ∧ j = 3) ∨ (i = 3 ∧ j = 0) := by
    intro i j hi hj hne h
    rw [hp i hi, hp j hj] at h
    rcases Nat.lt_or_gt_of_ne hne with g | g
    · exact Or.inl (peace hi hj g h)
    · exact Or.inr (peace hj hi g fun k => h k.symm).symm
  have range : ∀ {t}, Has s t 0 → 0 ≤ t ∧ t ≤ 3000 := by
    intro t h
    have h2 := h.2
    rw [hp 0 (by norm_num), top0, bot0] at h2
    exact h2
  refine ⟨fun i hi => ?_, fun i j hi hj => ?_, ?_, ?_⟩
  · rw [hp i (lt hi)]; exact gentle_piece i
  · rw [hp i (lt hi), hp j (lt hj)]
    exact (steep_piece i).upright (toCubic_mono (down_piece i)) (by norm_num) (by norm_num)
  · intro i j k t hne hi hj hk hw hch hn
    by_contra hc
    push Not at hc
    have li := lt hi.1
    have lj := lt hj.1
    have lk := lt hk.1
    have w := war li lj hne hw
    have h0 : 0 ≤ t ∧ t ≤ 3000 := by
      rcases w with ⟨rfl, rfl⟩ | ⟨rfl, rfl⟩
      · exact range hi
      · exact range hj
    have n := near li lk hc.1.symm hn
    have key : i = 0 ∧ j = 3 ∧ (t < 100 ∨ 2900 < t) := by
      rcases n with ⟨n, c⟩ | ⟨n, c⟩ | ⟨n, c⟩
      · refine ⟨?_, ?_, c⟩ <;> omega
      · omega
      · exfalso; rcases c with c | c <;> linarith
    obtain ⟨rfl, rfl, ht⟩ := key
    have : ∀ m, NearChain (1 / 100) (fun _ => 1 / 5000) s t 0 m → m = 0 ∨ m = 1 := by
      intro m hm
      unfold NearChain at hm
      induction hm with
      | refl => exact Or.inl rfl
      | @tail p q _ h2 ih =>
        by_cases e : p = q
        · rw [← e]; exact ih
        · rcases near (lt h2.1.1) (lt h2.2.1.1) e h2.2.2 with ⟨n, c⟩ | ⟨n, c⟩ | ⟨n, c⟩
          · omega
          · exfalso; rcases ht with ht | ht <;> linarith [c.1, c.2]
          · omega
    have := this 3 hch
    omega
  · intro i j t hne hw hv hi hj hn
    exfalso
    have li := lt hi.1
    have lj := lt hj.1
    have w := war li lj hne hw
    have h0 : 0 ≤ t ∧ t ≤ 3000 := by
      rcases w with ⟨rfl, rfl⟩ | ⟨rfl, rfl⟩
      · exact range hi
      · exact range hj
    have ht : t = 0 ∨ t = 3000 ∨ t = -1500 ∨ t = 4500 := by
      obtain ⟨k, hk, hv⟩ := hv
      rw [hl] at hk
      rw [hp k hk] at hv
      have : k = 0 ∨ k = 1 ∨ k = 2 ∨ k = 3 := by omega
      rcases this with rfl | rfl | rfl | rfl <;> simp only [top0, top1, top2, top3, bot0, bot1, bot2, bot3] at hv <;> rcases hv with rfl | rfl <;> simp
    have n := near li lj hne hn
    rcases n with ⟨n, c⟩ | ⟨n, c⟩ | ⟨n, c⟩
    · omega
    · rcases ht with ht | ht | ht | ht <;> linarith [c.1, c.2]
    · omega

/-- The intersection of the two bows: the operation returns; right of the large string and left of the thin curve the result is inside, on both other sides of the
crossing it is not. -/
theorem and_of_bows : ∃ s N t' cs, (∀ fuel, N ≤ fuel → binaryOp Cross.cfg thin large .evenOdd .intersection fuel = .ok s t' cs) ∧
    windContours s t' cs (3 / 4) 1500 = 1 ∧ windContours s t' cs (1 / 4) 1500 = 0 ∧ windContours s t' cs 2 1500 = 0 ∧ windContours s t' cs (3 / 4) 200 = 0 := by
  obtain ⟨s, tags, hb⟩ := built
  obtain ⟨hl, hp⟩ := arena_bows hb
  obtain ⟨N, t', cs, h1, h2⟩ := C87_curves (cfg := Cross.cfg) (by norm_num [Cross.cfg]) Ex.searches (Classical.choose_spec Geom.findsRoots_exists) Cross.oneFirst hb
    (loose hb) .evenOdd .intersection
  have off : ∀ {x z : ℝ}, 0 ≤ z → z ≤ 3000 → (x ≤ -1 / 10 ∨ 1 / 10 ≤ x) → (x + 1 / 10 ≤ 1 / 2 ∨ 1 / 2 + 1 / 10 ≤ x) → (x ≤ 3 / 4 + 3 / 2) →
      (∀ y, |y - z| ≤ 1 / 50 → 4 * (y / 3000 * (1 - y / 3000)) + 1 / 20 ≤ x) ∨ (∀ y, |y - z| ≤ 1 / 50 → x + 1 / 20 ≤ 4 * (y / 3000 * (1 - y / 3000))) →
      OffCurves Cross.cfg.eps (fun _ => 1 / 5000) s x z := by
    intro x z z0 z1 g1 g3 g2 g0 i hi
    have li : i < 4 := by rw [← hl]; exact hi.1.1
    have ce : Cross.cfg.eps = 1 / 100 := rfl
    rw [hp i li, ce]
    have : i = 0 ∨ i = 1 ∨ i = 2 ∨ i = 3 := by omega
    rcases this with rfl | rfl | rfl | rfl
    · rw [top0, bot0]
      rcases g0 with g0 | g0
      · left; intro y hy a b; rw [at0 a b]; linarith [g0 y (by linarith)]
      · right; intro y hy a b; rw [at0 a b]; linarith [g0 y (by linarith)]
    · rcases g1 with g1 | g1
      · right; intro y hy a b; rw [at1]; linarith
      · left; intro y hy a b; rw [at1]; linarith
    · right; intro y hy a b
      rw [top2] at a; rw [bot2] at b
      rw [abs_le] at hy
      rw [at2 a b]; linarith [large_mid (z := y) (by linarith) (by linarith)]
    · rcases g3 with g3 | g3
      · right; intro y hy a b; rw [at3]; linarith
      · left; intro y hy a b; rw [at3]; linarith
  have top : ∀ y : ℝ, |y - 1500| ≤ 1 / 50 → 9 / 10 ≤ 4 * (y / 3000 * (1 - y / 3000)) := by
    intro y hy
    rw [abs_le] at hy
    nlinarith
  have side : ∀ y : ℝ, |y - 200| ≤ 1 / 50 → 4 * (y / 3000 * (1 - y / 3000)) ≤ 3 / 10 := by
    intro y hy
    rw [abs_le] at hy
    nlinarith
  refine ⟨s, N, t', cs, h1, ?_, ?_, ?_, ?_⟩
  · refine (h2 (3 / 4) 1500 (off (by norm_num) (by norm_num) (by norm_num) (by norm_num) (by norm_num) (Or.inr fun y hy => by linarith [top y hy]))).1 ?_
    rw [thin, large, wind_bow (by norm_num), wind_bow (by norm_num)]
    norm_num [Combine, InShape]
  · refine (h2 (1 / 4) 1500 (off (by norm_num) (by norm_num) (by norm_num) (by norm_num) (by norm_num) (Or.inr fun y hy => by linarith [top y hy]))).2 ?_
    rw [thin, large, wind_bow (by norm_num), wind_bow (by norm_num)]
    norm_num [Combine, InShape]
  · refine (h2 2 1500 (off (by norm_num) (by norm_num) (by norm_num) (by norm_num) (by norm_num) (Or.inl fun y hy => ?_))).2 ?_
    · rw [abs_le] at hy
      linarith [(thin_range (z := y) (by linarith) (by linarith)).2]
    rw [thin, large, wind_bow (by norm_num), wind_bow (by norm_num)]
    norm_num [Combine, InShape]
  · refine (h2 (3 / 4) 200 (off (by norm_num) (by norm_num) (by norm_num) (by norm_num) (by norm_num) (Or.inl fun y hy => by linarith [side y hy]))).2 ?_
    rw [thin, large, wind_bow (by norm_num), wind_bow (by norm_num)]
    norm_num [Combine, InShape]

end Bow

end Verif.Full
