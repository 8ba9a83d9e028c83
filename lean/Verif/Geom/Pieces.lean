import Verif.Geom.Signs
import Verif.Geom.Bezier

/-! # Splitting a curve into monotone pieces (`geom.rs`): model and claim C65 -/

namespace Verif.Geom

open Classical in
/-- geom.rs:144-166 (`force_monotonic`). -/
noncomputable def forceMonotonic (c : Cubic) : Option Cubic :=
  if c.p0.y < c.p3.y then some ⟨c.p0, ⟨c.p1.x, max c.p0.y c.p1.y⟩, ⟨c.p2.x, min c.p3.y c.p2.y⟩, c.p3⟩
  else if c.p3.y < c.p0.y then some ⟨c.p0, ⟨c.p1.x, min c.p0.y c.p1.y⟩, ⟨c.p2.x, max c.p3.y c.p2.y⟩, c.p3⟩
  else if c.p0 ≠ c.p3 then
    some ⟨c.p0, ⟨c.p0.x + (c.p3.x - c.p0.x) * (1 / 3), c.p0.y + (c.p3.y - c.p0.y) * (1 / 3)⟩,
      ⟨c.p0.x + (c.p3.x - c.p0.x) * (2 / 3), c.p0.y + (c.p3.y - c.p0.y) * (2 / 3)⟩, c.p3⟩
  else none

/-- geom.rs:168-172 (`MonotonicPiece`). -/
structure MonoPiece where
  startT : ℝ
  endT : ℝ
  piece : Cubic

open Classical in
/-- geom.rs:174-201: the roots of the vertical speed. In exact arithmetic the scaled coefficients are infinite or NaN if and only if `a = 0`; the
roots are then that of a linear function, infinite (so not used) if `b = 0`. The roots at minus infinity of `monic_quadratic_roots` are not used
either and are left out. -/
noncomputable def speedRoots (c : Cubic) : List ℝ :=
  let q0 := c.p1.y - c.p0.y
  let q1 := c.p2.y - c.p1.y
  let q2 := c.p3.y - c.p2.y
  let cc := q0
  let b := (q1 - q0) * 2
  let a := q0 - q1 * 2 + q2
  if a = 0 then (if b = 0 then [] else [-cc / b])
  else
    match monicRoots (b * (1 / a)) (cc * (1 / a)) with
    | none => []
    | some (r0, r1) => if r1 ≠ r0 then [r0, r1] else [r0]

/-- geom.rs:209-215, 219-226: one piece, if there is one. -/
noncomputable def pieceOf (c : Cubic) (u v : ℝ) : List MonoPiece :=
  match forceMonotonic (c.subsegment u v) with
  | none => []
  | some p => [⟨u, v, p⟩]

open Classical in
/-- geom.rs:203-228: the loop over the roots and the last piece. -/
noncomputable def piecesFrom (c : Cubic) : ℝ → List ℝ → List MonoPiece
  | last, [] => pieceOf c last 1
  | last, r :: rs => if 0 < r ∧ r < 1 then pieceOf c last r ++ piecesFrom c r rs else piecesFrom c last rs

/-- geom.rs:174-229 (`monotonic_pieces`). -/
noncomputable def monotonicPieces (c : Cubic) : List MonoPiece := piecesFrom c 0 (speedRoots c)

/-! ## Lemmas -/

/-- The reversed curve. -/
def Cubic.rev (c : Cubic) : Cubic := ⟨c.p3, c.p2, c.p1, c.p0⟩

/-- The height of the curve is not constant. -/
def Cubic.NotFlat (c : Cubic) : Prop := ¬ (c.p0.y = c.p1.y ∧ c.p1.y = c.p2.y ∧ c.p2.y = c.p3.y)

/-- The vertical speed, as a quadratic. -/
def Cubic.speed (c : Cubic) (t : ℝ) : ℝ :=
  (c.p1.y - c.p0.y - (c.p2.y - c.p1.y) * 2 + (c.p3.y - c.p2.y)) * t * t + (c.p2.y - c.p1.y - (c.p1.y - c.p0.y)) * 2 * t + (c.p1.y - c.p0.y)

theorem derivAt_speed (c : Cubic) (t : ℝ) : (c.derivAt t).y = 3 * c.speed t := by
  simp only [Cubic.derivAt, Cubic.deriv, bez2, Cubic.speed]; ring

theorem sub_derivAt (c : Cubic) (u v s : ℝ) : ((c.subsegment u v).derivAt s).y = (v - u) * (c.derivAt (u + s * (v - u))).y := by
  simp only [Cubic.subsegment, Cubic.derivAt, Cubic.deriv, Cubic.eval, bez3, bez2]; ring

theorem forceMonotonic_mono {c : Cubic} (h : c.Mono) : forceMonotonic c = some c := by
  have h0 := h.2 0 le_rfl zero_le_one
  have h1 := h.2 1 zero_le_one le_rfl
  simp only [Cubic.derivAt, Cubic.deriv, bez2] at h0 h1
  unfold forceMonotonic
  rw [if_pos h.1, max_eq_right (by linarith), min_eq_right (by linarith)]

theorem rev_derivAt (c : Cubic) (t : ℝ) : (c.rev.derivAt t).y = -(c.derivAt (1 - t)).y := by
  simp only [Cubic.rev, Cubic.derivAt, Cubic.deriv, bez2]; ring

theorem forceMonotonic_rev {c : Cubic} (h : c.rev.Mono) : forceMonotonic c = some c := by
  have h0 := h.2 0 le_rfl zero_le_one
  have h1 := h.2 1 zero_le_one le_rfl
  rw [rev_derivAt] at h0 h1
  simp only [Cubic.derivAt, Cubic.deriv, bez2] at h0 h1
  have hlt : c.p3.y < c.p0.y := h.1
  unfold forceMonotonic
  rw [if_neg (not_lt.2 hlt.le), if_pos hlt, min_eq_right (by linarith), max_eq_right (by linarith)]

/-- On an interval where the vertical speed does not change its sign, the piece is monotone. -/
theorem sub_mono {c : Cubic} (hf : c.NotFlat) {u v : ℝ} (huv : u < v) :
    ((∀ t, u ≤ t → t ≤ v → 0 ≤ c.speed t) → (c.subsegment u v).Mono) ∧
    ((∀ t, u ≤ t → t ≤ v → c.speed t ≤ 0) → (c.subsegment u v).rev.Mono) := by
  have hin : ∀ s, 0 ≤ s → s ≤ 1 → u ≤ u + s * (v - u) ∧ u + s * (v - u) ≤ v := fun s h0 h1 => by
    constructor <;> nlinarith
  have hp0 : (c.subsegment u v).p0 = c.eval u := rfl
  have hp3 : (c.subsegment u v).p3 = c.eval v := rfl
  constructor
  · intro h
    have hmono : ∀ s t, u ≤ s → s ≤ t → t ≤ v → (c.eval s).y ≤ (c.eval t).y := fun s t a b d =>
      mono_of_deriv (f := fun t => (c.eval t).y) c.hasDeriv_y (fun t h1 h2 => by rw [derivAt_speed]; linarith [h t h1 h2]) a b d
    refine ⟨?_, fun s h0 h1 => ?_⟩
    · rw [hp0, hp3]
      rcases lt_or_eq_of_le (hmono u v le_rfl huv.le le_rfl) with e | e
      · exact e
      · exact absurd (bez3_const (k := (c.eval u).y) huv fun w a b =>
          le_antisymm (by rw [e]; exact hmono w v a b le_rfl) (hmono u w le_rfl a b)) hf
    · rw [sub_derivAt, derivAt_speed]
      have := h _ (hin s h0 h1).1 (hin s h0 h1).2
      exact mul_nonneg (by linarith) (by linarith)
  · intro h
    have hmono : ∀ s t, u ≤ s → s ≤ t → t ≤ v → (c.eval t).y ≤ (c.eval s).y := fun s t a b d => by
      have := mono_of_deriv (f := fun t => -(c.eval t).y) (fun t => (c.hasDeriv_y t).neg) (a := u) (b := v)
        (fun t h1 h2 => by rw [derivAt_speed]; linarith [h t h1 h2]) a b d
      linarith
    refine ⟨?_, fun s h0 h1 => ?_⟩
    · show (c.subsegment u v).p3.y < (c.subsegment u v).p0.y
      rw [hp0, hp3]
      rcases lt_or_eq_of_le (hmono u v le_rfl huv.le le_rfl) with e | e
      · exact e
      · exact absurd (bez3_const (k := (c.eval u).y) huv fun w a b =>
          le_antisymm (hmono u w le_rfl a b) (by rw [← e]; exact hmono w v a b le_rfl)) hf
    · rw [rev_derivAt, sub_derivAt, derivAt_speed]
      have := hin (1 - s) (by linarith) (by linarith)
      have := h _ this.1 this.2
      have := mul_nonpos_of_nonneg_of_nonpos (show 0 ≤ v - u by linarith) (show 3 * c.speed (u + (1 - s) * (v - u)) ≤ 0 by linarith)
      linarith

/-- The vertical speed does not change its sign strictly between `u` and `v` (and so on the closed interval). -/
def SameSign (c : Cubic) (u v : ℝ) : Prop := (∀ t, u ≤ t → t ≤ v → 0 ≤ c.speed t) ∨ (∀ t, u ≤ t → t ≤ v → c.speed t ≤ 0)

theorem pieceOf_eq {c : Cubic} (hf : c.NotFlat) {u v : ℝ} (huv : u < v) (hs : SameSign c u v) :
    pieceOf c u v = [⟨u, v, c.subsegment u v⟩] ∧ ((c.subsegment u v).Mono ∨ (c.subsegment u v).rev.Mono) := by
  unfold pieceOf
  rcases hs with h | h
  · have := (sub_mono hf huv).1 h
    rw [forceMonotonic_mono this]
    exact ⟨rfl, .inl this⟩
  · have := (sub_mono hf huv).2 h
    rw [forceMonotonic_rev this]
    exact ⟨rfl, .inr this⟩

/-- A chain of pieces from `u` to `1`: consecutive parameter intervals, each the monotone part of the curve. -/
def Chain (c : Cubic) : ℝ → List MonoPiece → Prop
  | u, [] => u = 1
  | u, p :: ps => p.startT = u ∧ p.startT < p.endT ∧ p.piece = c.subsegment p.startT p.endT ∧ (p.piece.Mono ∨ p.piece.rev.Mono) ∧ Chain c p.endT ps

/-- What the roots must satisfy for the loop from `last`. -/
def RootsOk (c : Cubic) : ℝ → List ℝ → Prop
  | last, [] => SameSign c last 1
  | last, r :: rs => if 0 < r ∧ r < 1 then last < r ∧ SameSign c last r ∧ RootsOk c r rs else RootsOk c last rs

theorem piecesFrom_chain {c : Cubic} (hf : c.NotFlat) (rs : List ℝ) :
    ∀ last, last < 1 → RootsOk c last rs → Chain c last (piecesFrom c last rs) ∧ (piecesFrom c last rs).length ≤ rs.length + 1 := by
  induction rs with
  | nil =>
    intro last hl h
    obtain ⟨e, m⟩ := pieceOf_eq hf hl h
    rw [piecesFrom, e]
    exact ⟨⟨rfl, hl, rfl, m, rfl⟩, by simp⟩
  | cons r rs ih =>
    intro last hl h
    rw [RootsOk] at h
    rw [piecesFrom]
    by_cases hr : 0 < r ∧ r < 1
    · rw [if_pos hr] at h ⊢
      obtain ⟨e, m⟩ := pieceOf_eq hf h.1 h.2.1
      obtain ⟨g1, g2⟩ := ih r hr.2 h.2.2
      rw [e]
      exact ⟨⟨rfl, h.1, rfl, m, g1⟩, by simp; omega⟩
    · rw [if_neg hr] at h ⊢
      obtain ⟨g1, g2⟩ := ih last hl h
      exact ⟨g1, by simp; omega⟩

theorem mulSign {a x : ℝ} : (0 ≤ a ∧ 0 ≤ x) ∨ (a ≤ 0 ∧ x ≤ 0) → 0 ≤ a * x := by
  rintro (⟨h, g⟩ | ⟨h, g⟩)
  · exact mul_nonneg h g
  · exact mul_nonneg_of_nonpos_of_nonpos h g

/-- If the speed is `a` times a function that does not change sign, neither does the speed. -/
theorem sameSign_of {c : Cubic} {u v a : ℝ} {g : ℝ → ℝ} (he : ∀ t, c.speed t = a * g t)
    (hg : (∀ t, u ≤ t → t ≤ v → 0 ≤ g t) ∨ (∀ t, u ≤ t → t ≤ v → g t ≤ 0)) : SameSign c u v := by
  rcases le_total 0 a with ha | ha <;> rcases hg with hg | hg
  · exact .inl fun t h0 h1 => by rw [he]; exact mul_nonneg ha (hg t h0 h1)
  · exact .inr fun t h0 h1 => by rw [he]; exact mul_nonpos_of_nonneg_of_nonpos ha (hg t h0 h1)
  · exact .inr fun t h0 h1 => by rw [he]; exact mul_nonpos_of_nonpos_of_nonneg ha (hg t h0 h1)
  · exact .inl fun t h0 h1 => by rw [he]; exact mul_nonneg_of_nonpos_of_nonpos ha (hg t h0 h1)

theorem speedRoots_ok (c : Cubic) : RootsOk c 0 (speedRoots c) ∧ (speedRoots c).length ≤ 2 := by
  obtain ⟨a, ha⟩ : ∃ a, a = c.p1.y - c.p0.y - (c.p2.y - c.p1.y) * 2 + (c.p3.y - c.p2.y) := ⟨_, rfl⟩
  obtain ⟨b, hb⟩ : ∃ b, b = (c.p2.y - c.p1.y - (c.p1.y - c.p0.y)) * 2 := ⟨_, rfl⟩
  obtain ⟨d, hd⟩ : ∃ d, d = c.p1.y - c.p0.y := ⟨_, rfl⟩
  have hsp : ∀ t, c.speed t = a * t * t + b * t + d := fun t => by rw [ha, hb, hd]; rfl
  simp only [speedRoots]
  rw [← ha, ← hb, ← hd]
  -- with one root
  have linear : ∀ (k r : ℝ), (∀ t, c.speed t = k * (t - r)) → RootsOk c 0 [r] := by
    intro k r he
    simp only [RootsOk]
    by_cases hr : 0 < r ∧ r < 1
    · rw [if_pos hr]
      exact ⟨hr.1, sameSign_of he (.inr fun t h0 h1 => by linarith), sameSign_of he (.inl fun t h0 h1 => by linarith)⟩
    · rw [if_neg hr]
      rw [not_and_or, not_lt, not_lt] at hr
      rcases hr with hr | hr
      · exact sameSign_of he (.inl fun t h0 h1 => by linarith)
      · exact sameSign_of he (.inr fun t h0 h1 => by linarith)
  by_cases ha0 : a = 0
  · rw [if_pos ha0]
    by_cases hb0 : b = 0
    · rw [if_pos hb0]
      refine ⟨?_, by simp⟩
      refine sameSign_of (a := d) (g := fun _ => 1) (fun t => by rw [hsp, ha0, hb0]; ring) (.inl fun t _ _ => zero_le_one)
    · rw [if_neg hb0]
      exact ⟨linear b _ fun t => by rw [hsp, ha0]; field_simp; ring, by simp⟩
  · rw [if_neg ha0]
    obtain ⟨l1, l2⟩ := roots_sign (a := a) (b := b) (c := d) (k := 0) ha0
    rw [sub_zero] at l1 l2
    cases hm : monicRoots (b * (1 / a)) (d * (1 / a)) with
    | none =>
      refine ⟨?_, by simp⟩
      have := l1 hm
      have hone : ∀ t, 0 ≤ a * c.speed t := fun t => by rw [hsp]; have := l1 hm t; rwa [sub_zero] at this
      rcases lt_or_gt_of_ne ha0 with h | h
      · exact .inr fun t _ _ => by
          by_contra hc
          have := mul_neg_of_neg_of_pos h (not_le.1 hc)
          linarith [hone t]
      · exact .inl fun t _ _ => nonneg_of_mul_nonneg_right (hone t) h
    | some p =>
      obtain ⟨r, s⟩ := p
      obtain ⟨hrs, hfac⟩ := l2 r s hm
      have he : ∀ t, c.speed t = a * ((t - r) * (t - s)) := fun t => by
        rw [hsp, ← hfac, sub_zero]
      dsimp only
      rw [if_pos hrs.ne']
      refine ⟨?_, by simp⟩
      -- the signs of (t - r) (t - s)
      have lo : ∀ u v, v ≤ r → SameSign c u v := fun u v h => sameSign_of he (.inl fun t h0 h1 => mul_nonneg_of_nonpos_of_nonpos (by linarith) (by linarith))
      have mi : ∀ u v, r ≤ u → v ≤ s → SameSign c u v := fun u v h h' =>
        sameSign_of he (.inr fun t h0 h1 => mul_nonpos_of_nonneg_of_nonpos (by linarith) (by linarith))
      have hi : ∀ u v, s ≤ u → SameSign c u v := fun u v h => sameSign_of he (.inl fun t h0 h1 => mul_nonneg (by linarith) (by linarith))
      simp only [RootsOk]
      by_cases hr : 0 < r ∧ r < 1
      · rw [if_pos hr]
        refine ⟨hr.1, lo _ _ le_rfl, ?_⟩
        by_cases hs : 0 < s ∧ s < 1
        · rw [if_pos hs]
          exact ⟨hrs, mi _ _ le_rfl le_rfl, hi _ _ le_rfl⟩
        · rw [if_neg hs]
          refine mi _ _ le_rfl ?_
          by_contra hc
          exact hs ⟨by linarith [hr.1], not_le.1 hc⟩
      · rw [if_neg hr]
        by_cases hs : 0 < s ∧ s < 1
        · rw [if_pos hs]
          have hr0 : r ≤ 0 := by
            by_contra hc
            exact hr ⟨not_le.1 hc, by linarith [hs.2]⟩
          exact ⟨hs.1, mi _ _ hr0 le_rfl, hi _ _ le_rfl⟩
        · rw [if_neg hs]
          by_cases h1 : 1 ≤ r
          · exact lo _ _ h1
          · have hr0 : r ≤ 0 := by
              by_contra hc
              exact hr ⟨not_le.1 hc, not_le.1 h1⟩
            by_cases h2 : s ≤ 0
            · exact hi _ _ h2
            · refine mi _ _ hr0 ?_
              by_contra hc
              exact hs ⟨not_le.1 h2, not_le.1 hc⟩

/-! ## C65 -/

/-- **C65.** Splitting a curve whose height is not constant gives at most three pieces. They cut the parameter interval from `0` to `1` without
gaps or overlaps; each is the corresponding part of the curve, and on each the height strictly increases or strictly decreases. -/
theorem C65_monotonic_pieces (c : Cubic) (hf : c.NotFlat) :
    (monotonicPieces c).length ≤ 3 ∧ (monotonicPieces c).head?.map MonoPiece.startT = some 0 ∧
      (monotonicPieces c).getLast?.map MonoPiece.endT = some 1 ∧ (monotonicPieces c).IsChain (fun p q => p.endT = q.startT) ∧
      ∀ p ∈ monotonicPieces c, p.startT < p.endT ∧ (∀ s, p.piece.eval s = c.eval (p.startT + s * (p.endT - p.startT))) ∧
        ((∀ s t, p.startT ≤ s → s < t → t ≤ p.endT → (c.eval s).y < (c.eval t).y) ∨
         (∀ s t, p.startT ≤ s → s < t → t ≤ p.endT → (c.eval t).y < (c.eval s).y)) := by
  obtain ⟨h1, h2⟩ := speedRoots_ok c
  obtain ⟨g1, g2⟩ := piecesFrom_chain hf (speedRoots c) 0 zero_lt_one h1
  have hne : monotonicPieces c ≠ [] := by
    intro h
    unfold monotonicPieces at h
    rw [h] at g1
    exact zero_ne_one g1
  -- unfold the chain
  have key : ∀ (l : List MonoPiece) (u : ℝ), Chain c u l → l.IsChain (fun p q => p.endT = q.startT) ∧ (∀ p, l.head? = some p → p.startT = u) ∧
      (∀ p, l.getLast? = some p → p.endT = 1) ∧
      ∀ p ∈ l, p.startT < p.endT ∧ p.piece = c.subsegment p.startT p.endT ∧ (p.piece.Mono ∨ p.piece.rev.Mono) := by
    intro l
    induction l with
    | nil => intro u _; simp
    | cons p ps ih =>
      rintro u ⟨k1, k2, k3, k4, k5⟩
      obtain ⟨j1, j2, j3, j4⟩ := ih p.endT k5
      refine ⟨?_, ?_, ?_, ?_⟩
      · cases ps with
        | nil => simp
        | cons q qs =>
          rw [List.isChain_cons_cons]
          exact ⟨(j2 q rfl).symm, j1⟩
      · intro q hq
        simp only [List.head?_cons, Option.some.injEq] at hq
        rw [← hq, k1]
      · intro q hq
        cases ps with
        | nil =>
          simp only [List.getLast?_singleton, Option.some.injEq] at hq
          rw [← hq]; exact k5
        | cons q' qs =>
          rw [List.getLast?_cons_cons] at hq
          exact j3 q hq
      · intro q hq
        rcases List.mem_cons.1 hq with e | hq
        · subst e; exact ⟨k2, k3, k4⟩
        · exact j4 q hq
  obtain ⟨k1, k2, k3, k4⟩ := key _ _ g1
  have hh := List.head?_eq_some_head hne
  have hl := List.getLast?_eq_some_getLast hne
  refine ⟨le_trans g2 (by omega), ?_, ?_, k1, ?_⟩
  · rw [hh, Option.map_some, k2 _ hh]
  · rw [hl, Option.map_some, k3 _ hl]
  · intro p hp
    obtain ⟨j1, j2, j3⟩ := k4 p hp
    have hev : ∀ s, p.piece.eval s = c.eval (p.startT + s * (p.endT - p.startT)) := fun s => by rw [j2, Cubic.subsegment_eval]
    refine ⟨j1, hev, ?_⟩
    have hpar : ∀ s, p.startT ≤ s → s ≤ p.endT → ∃ w, 0 ≤ w ∧ w ≤ 1 ∧ p.startT + w * (p.endT - p.startT) = s ∧ w = (s - p.startT) / (p.endT - p.startT) := by
      intro s h0 h1
      have hd : 0 < p.endT - p.startT := by linarith
      exact ⟨(s - p.startT) / (p.endT - p.startT), div_nonneg (by linarith) hd.le, by rw [div_le_one hd]; linarith, by field_simp; ring, rfl⟩
    have hlt : ∀ s t, s < t → (s - p.startT) / (p.endT - p.startT) < (t - p.startT) / (p.endT - p.startT) := fun s t h => by
      have hd : 0 < p.endT - p.startT := by linarith
      gcongr
    rcases j3 with j3 | j3
    · left
      intro s t h0 hst h1
      obtain ⟨w, w0, w1, we, wd⟩ := hpar s h0 (hst.le.trans h1)
      obtain ⟨x, x0, x1, xe, xd⟩ := hpar t (h0.trans hst.le) h1
      have := j3.strict w0 (show w < x by rw [wd, xd]; exact hlt s t hst) x1
      rwa [hev, hev, we, xe] at this
    · right
      intro s t h0 hst h1
      obtain ⟨w, w0, w1, we, wd⟩ := hpar s h0 (hst.le.trans h1)
      obtain ⟨x, x0, x1, xe, xd⟩ := hpar t (h0.trans hst.le) h1
      have hwx : w < x := by rw [wd, xd]; exact hlt s t hst
      have hrev : ∀ u, p.piece.rev.eval u = p.piece.eval (1 - u) := fun u => by
        ext <;> simp only [Cubic.rev, Cubic.eval, bez3] <;> ring
      have := j3.strict (s := 1 - x) (t := 1 - w) (by linarith) (by linarith) (by linarith)
      rwa [hrev, hrev, sub_sub_cancel, sub_sub_cancel, hev, hev, we, xe] at this

/-- **C65.** A curve of constant height becomes one straight piece with the same ends, or nothing if it starts where it ends. -/
theorem C65_flat (c : Cubic) (hf : ¬ c.NotFlat) :
    (c.p0 ≠ c.p3 → ∃ q, monotonicPieces c = [⟨0, 1, q⟩] ∧ q.p0 = c.p0 ∧ q.p3 = c.p3 ∧ ∀ t, q.eval t = c.p0.affine c.p3 t) ∧
    (c.p0 = c.p3 → monotonicPieces c = []) := by
  unfold Cubic.NotFlat at hf
  rw [not_not] at hf
  obtain ⟨e1, e2, e3⟩ := hf
  have hr : speedRoots c = [] := by
    simp only [speedRoots, e1, e2, e3]
    norm_num
  have hs0 : (c.subsegment 0 1).p0 = c.p0 := c.eval_zero
  have hs3 : (c.subsegment 0 1).p3 = c.p3 := c.eval_one
  have hy : c.p0.y = c.p3.y := by rw [e1, e2, e3]
  have hn1 : ¬ (c.subsegment 0 1).p0.y < (c.subsegment 0 1).p3.y := by rw [hs0, hs3, hy]; exact lt_irrefl _
  have hn2 : ¬ (c.subsegment 0 1).p3.y < (c.subsegment 0 1).p0.y := by rw [hs0, hs3, hy]; exact lt_irrefl _
  constructor
  · intro hne
    refine ⟨⟨(c.subsegment 0 1).p0, ⟨(c.subsegment 0 1).p0.x + ((c.subsegment 0 1).p3.x - (c.subsegment 0 1).p0.x) * (1 / 3),
        (c.subsegment 0 1).p0.y + ((c.subsegment 0 1).p3.y - (c.subsegment 0 1).p0.y) * (1 / 3)⟩,
      ⟨(c.subsegment 0 1).p0.x + ((c.subsegment 0 1).p3.x - (c.subsegment 0 1).p0.x) * (2 / 3),
        (c.subsegment 0 1).p0.y + ((c.subsegment 0 1).p3.y - (c.subsegment 0 1).p0.y) * (2 / 3)⟩, (c.subsegment 0 1).p3⟩, ?_, hs0, hs3, ?_⟩
    · rw [monotonicPieces, hr, piecesFrom, pieceOf, forceMonotonic, if_neg hn1, if_neg hn2, if_pos (by rw [hs0, hs3]; exact hne)]
    intro t
    rw [hs0, hs3]
    ext <;> simp only [Cubic.eval, bez3, Pt.affine] <;> ring
  · intro he
    rw [monotonicPieces, hr, piecesFrom, pieceOf, forceMonotonic, if_neg hn1, if_neg hn2, if_neg (by rw [hs0, hs3]; exact not_not.2 he)]

/-- Non-vacuity of C65: a curve that goes down, up and down again is split in three. -/
example : (⟨⟨0, 0⟩, ⟨1, 3⟩, ⟨2, -2⟩, ⟨3, 1⟩⟩ : Cubic).NotFlat := by
  rintro ⟨h, _⟩; norm_num at h

end Verif.Geom
