import Verif.Pos.Approx

/-!
# `ordered_curves_all_close` (`src/position.rs`:27-120)
-/

namespace Verif.Pos
open Verif.Curve Verif.Geom Verif.Scan

/-- A horizontal strip between two heights, with the horizontal positions of the middle control point and of the end of the quadratic of each
output segment. -/
structure Strip where
  lo : ℝ
  hi : ℝ
  xm : Nat → ℝ
  x1 : Nat → ℝ

/-- The quadratic of an output segment in a strip. -/
noncomputable def Strip.el (s : Strip) (o : Nat) : El := .quad ⟨s.xm o, (s.lo + s.hi) / 2⟩ ⟨s.x1 o, s.hi⟩

/-- The strips lie below each other, from `y0` to `y1`. -/
inductive Stacked : ℝ → ℝ → List Strip → Prop
  | nil (y : ℝ) : Stacked y y []
  | cons (s : Strip) {y1 : ℝ} {l : List Strip} (h : s.lo < s.hi) (t : Stacked s.hi y1 l) : Stacked s.lo y1 (s :: l)

/-- The middle control point of the parabola `q` between two heights, both measured from the middle. -/
noncomputable def midOf (q : EstParab) (y0 y1 : ℝ) : ℝ := q.c0 + (y0 - (y0 + y1) / 2) * (y1 - (y0 + y1) / 2) * q.c2

/-- Positions along the list `os` of output segments do not decrease, and each is the greatest of the given positions up to there. -/
def RunningMax (os : List Nat) (f g : Nat → ℝ) : Prop :=
  ∀ l1 o l2, os = l1 ++ o :: l2 → IsGreatest {x | ∃ o' ∈ l1 ++ [o], x = f o'} (g o)

theorem RunningMax.le {os : List Nat} {f g : Nat → ℝ} (h : RunningMax os f g) : os.Pairwise fun a b => g a ≤ g b := by
  rw [List.pairwise_iff_forall_sublist]
  intro a b hab
  obtain ⟨l1, r, e, h1⟩ : ∃ l1 r, os = l1 ++ a :: r ∧ [b].Sublist r := by
    obtain ⟨r1, r2, e, s1, s2⟩ := List.cons_sublist_iff.1 hab
    obtain ⟨u, v, e'⟩ := List.append_of_mem s1
    exact ⟨u, v ++ r2, by rw [e, e']; simp, s2.trans (List.sublist_append_right _ _)⟩
  obtain ⟨u, v, e'⟩ := List.append_of_mem (List.singleton_sublist.1 h1)
  have ha := h l1 a r e
  have hb := h (l1 ++ a :: u) b v (by rw [e, e']; simp)
  obtain ⟨o', ho', hx⟩ := ha.1
  rw [hx]
  apply hb.2
  refine ⟨o', ?_, rfl⟩
  simp only [List.mem_append, List.mem_singleton, List.mem_cons] at ho' ⊢
  tauto

/-- The quadratics of one strip. -/
theorem pushQuads_spec (y0 y1 : ℝ) : ∀ (os : List Nat) (q : Nat → EstParab) (m : Option (ℝ × ℝ)) (out : Nat → OPath), os.Nodup →
    ∃ xm x1 : Nat → ℝ, (∀ o, pushQuads y0 y1 m ((os.map q).zip os) out o =
        if o ∈ os then (out o).push (Strip.el ⟨y0, y1, xm, x1⟩ o) else out o) ∧
      (∀ l1 o l2, os = l1 ++ o :: l2 → IsGreatest ({x | ∃ o' ∈ l1 ++ [o], x = midOf (q o') y0 y1} ∪ {x | ∃ p ∈ m, x = p.1}) (xm o)) ∧
      (∀ l1 o l2, os = l1 ++ o :: l2 → IsGreatest ({x | ∃ o' ∈ l1 ++ [o], x = (q o').eval (y1 - (y0 + y1) / 2)} ∪ {x | ∃ p ∈ m, x = p.2}) (x1 o)) := by
  intro os
  induction os with
  | nil =>
    intro q m out _
    exact ⟨fun _ => 0, fun _ => 0, by simp [pushQuads], by simp, by simp⟩
  | cons a os ih =>
    intro q m out hn
    obtain ⟨hna, hn⟩ := List.nodup_cons.1 hn
    obtain ⟨xa, hxa⟩ : ∃ x, x = midOf (q a) y0 y1 := ⟨_, rfl⟩
    obtain ⟨za, hza⟩ : ∃ x, x = (q a).eval (y1 - (y0 + y1) / 2) := ⟨_, rfl⟩
    obtain ⟨m', hm'⟩ : ∃ m' : ℝ × ℝ, m' = match m with | none => (xa, za) | some m => (max m.1 xa, max m.2 za) := ⟨_, rfl⟩
    obtain ⟨xm, x1, h1, h2, h3⟩ := ih q (some m') (Function.update out a ((out a).push (.quad ⟨m'.1, (y0 + y1) / 2⟩ ⟨m'.2, y1⟩))) hn
    have g1 : IsGreatest ({x | x = xa} ∪ {x | ∃ p ∈ m, x = p.1}) m'.1 := by
      cases m with
      | none => subst hm'; simp [IsGreatest, upperBounds]
      | some p =>
        subst hm'
        refine ⟨?_, ?_⟩
        · rcases le_total p.1 xa with h | h
          · left; simp [h]
          · right; simp [h]
        · rintro x (rfl | ⟨p', hp', rfl⟩)
          · exact le_max_right _ _
          · cases hp'; exact le_max_left _ _
    have g2 : IsGreatest ({x | x = za} ∪ {x | ∃ p ∈ m, x = p.2}) m'.2 := by
      cases m with
      | none => subst hm'; simp [IsGreatest, upperBounds]
      | some p =>
        subst hm'
        refine ⟨?_, ?_⟩
        · rcases le_total p.2 za with h | h
          · left; simp [h]
          · right; simp [h]
        · rintro x (rfl | ⟨p', hp', rfl⟩)
          · exact le_max_right _ _
          · cases hp'; exact le_max_left _ _
    refine ⟨Function.update xm a m'.1, Function.update x1 a m'.2, ?_, ?_, ?_⟩
    · intro o
      have e : pushQuads y0 y1 m (((a :: os).map q).zip (a :: os)) out =
          pushQuads y0 y1 (some m') ((os.map q).zip os) (Function.update out a ((out a).push (.quad ⟨m'.1, (y0 + y1) / 2⟩ ⟨m'.2, y1⟩))) := by
        rw [hm', hxa, hza]
        rfl
      rw [e, h1 o]
      by_cases hoa : o = a
      · subst hoa
        simp [hna, Strip.el]
      · by_cases ho : o ∈ os
        · simp [hoa, ho, Strip.el]
        · simp [hoa, ho]
    · rintro l1 o l2 e
      rcases l1 with _ | ⟨b, l1⟩
      · simp only [List.nil_append, List.cons.injEq] at e
        obtain ⟨rfl, rfl⟩ := e
        rw [Function.update_self]
        convert g1 using 2
        ext x; simp [hxa]
      · simp only [List.cons_append, List.cons.injEq] at e
        obtain ⟨rfl, e⟩ := e
        have hoa : o ≠ a := by rintro rfl; exact hna (by rw [e]; simp)
        rw [Function.update_of_ne hoa]
        have := h2 l1 o l2 e
        refine ⟨?_, ?_⟩
        · rcases this.1 with ⟨o', ho', hx⟩ | ⟨p, hp, hx⟩
          · left; exact ⟨o', by simp at ho' ⊢; tauto, hx⟩
          · cases hp
            rw [hx]
            rcases g1.1 with h | h
            · left; exact ⟨a, by simp, by rw [← hxa]; exact h⟩
            · right; exact h
        · rintro x (⟨o', ho', hx⟩ | hx)
          · simp only [List.cons_append, List.mem_cons] at ho'
            rcases ho' with rfl | ho'
            · refine (g1.2 (.inl ?_)).trans (this.2 (.inr ⟨m', rfl, rfl⟩))
              rw [hx, hxa]; rfl
            · exact this.2 (.inl ⟨o', ho', hx⟩)
          · exact (g1.2 (.inr hx)).trans (this.2 (.inr ⟨m', rfl, rfl⟩))
    · rintro l1 o l2 e
      rcases l1 with _ | ⟨b, l1⟩
      · simp only [List.nil_append, List.cons.injEq] at e
        obtain ⟨rfl, rfl⟩ := e
        rw [Function.update_self]
        convert g2 using 2
        ext x; simp [hza]
      · simp only [List.cons_append, List.cons.injEq] at e
        obtain ⟨rfl, e⟩ := e
        have hoa : o ≠ a := by rintro rfl; exact hna (by rw [e]; simp)
        rw [Function.update_of_ne hoa]
        have := h3 l1 o l2 e
        refine ⟨?_, ?_⟩
        · rcases this.1 with ⟨o', ho', hx⟩ | ⟨p, hp, hx⟩
          · left; exact ⟨o', by simp at ho' ⊢; tauto, hx⟩
          · cases hp
            rw [hx]
            rcases g2.1 with h | h
            · left; exact ⟨a, by simp, by rw [← hza]; exact h⟩
            · right; exact h
        · rintro x (⟨o', ho', hx⟩ | hx)
          · simp only [List.cons_append, List.mem_cons] at ho'
            rcases ho' with rfl | ho'
            · refine (g2.2 (.inl ?_)).trans (this.2 (.inr ⟨m', rfl, rfl⟩))
              rw [hx, hza]; rfl
            · exact this.2 (.inl ⟨o', ho', hx⟩)
          · exact (g2.2 (.inr hx)).trans (this.2 (.inr ⟨m', rfl, rfl⟩))

/-- The parabola of a part of a curve, measured from the middle, passes through the ends of the part. -/
theorem parab_ends (solve : ℝ → ℝ → ℝ → ℝ → List ℝ) (c : Cubic) {y0 y1 : ℝ} (h : y0 < y1) :
    (fromCubic solve (recentred c y0 y1)).eval (y0 - (y0 + y1) / 2) = solveX c y0 ∧
    (fromCubic solve (recentred c y0 y1)).eval (y1 - (y0 + y1) / 2) = solveX c y1 := by
  have := fromCubic_ends solve (recentred c y0 y1) (by simp only [recentred, ySubsegment]; linarith)
  simpa only [recentred, ySubsegment, Cubic.subsegment, solveX] using this

/-- What is known about a strip of the group `os`: the quadratics end at the running maxima of the original curves, their middle control points
are the running maxima of those of the parabolas, and all curves fit. -/
structure StripOk (I : Input) (os : List Nat) (s : Strip) : Prop where
  x1 : RunningMax os (fun o => solveX (I.seg o).toCubic s.hi) s.x1
  xm : RunningMax os (fun o => midOf (fromCubic I.solve (recentred (I.seg o).toCubic s.lo s.hi)) s.lo s.hi) s.xm
  fits : ∀ o ∈ os, Fits I.solve I.accuracy s.lo s.hi (I.seg o).toCubic

theorem pushQuads_ok (I : Input) {os : List Nat} (hn : os.Nodup) {y0 y : ℝ} (h : y0 < y) (out : Nat → OPath)
    (hf : ∀ o ∈ os, Fits I.solve I.accuracy y0 y (I.seg o).toCubic) :
    ∃ s : Strip, s.lo = y0 ∧ s.hi = y ∧ StripOk I os s ∧
      ∀ o, pushQuads y0 y none (((os.map fun o => (I.seg o).toCubic).map (fun c => fromCubic I.solve (recentred c y0 y))).zip os) out o =
        if o ∈ os then (out o).push (s.el o) else out o := by
  obtain ⟨xm, x1, h1, h2, h3⟩ := pushQuads_spec y0 y os (fun o => fromCubic I.solve (recentred (I.seg o).toCubic y0 y)) none out hn
  refine ⟨⟨y0, y, xm, x1⟩, rfl, rfl, ⟨?_, ?_, hf⟩, ?_⟩
  · intro l1 o l2 e
    have := h3 l1 o l2 e
    simp only [(parab_ends I.solve _ h).2] at this
    simpa using this
  · intro l1 o l2 e
    have := h2 l1 o l2 e
    simpa using this
  · intro o
    rw [List.map_map]
    exact h1 o

theorem quadLoop_mono (I : Input) (os : List Nat) (y1 : ℝ) : ∀ {n m : ℕ} {y0 : ℝ} {out r : Nat → OPath}, n ≤ m →
    quadLoop I os y1 n y0 out = some r → quadLoop I os y1 m y0 out = some r := by
  intro n
  induction n with
  | zero => intro m y0 out r _ h; simp [quadLoop] at h
  | succ n ih =>
    intro m y0 out r hm h
    obtain ⟨m, rfl⟩ : ∃ k, m = k + 1 := ⟨m - 1, by omega⟩
    rw [quadLoop] at h ⊢
    by_cases hy : y0 < y1
    · rw [if_pos hy] at h ⊢
      cases ha : approximate I.solve I.accuracy (os.map fun o => (I.seg o).toCubic) y0 n y1 with
      | none => rw [ha] at h; simp at h
      | some p =>
        rw [ha] at h
        rw [approximate_mono (by omega) ha]
        exact ih (by omega) h
    · rw [if_neg hy] at h ⊢
      exact h

/-- The effect of the loop over the heights. -/
theorem quadLoop_spec (I : Input) {os : List Nat} (hn : os.Nodup) (y1 : ℝ) : ∀ {n : ℕ} {y0 : ℝ} {out r : Nat → OPath}, y0 ≤ y1 →
    quadLoop I os y1 n y0 out = some r → ∃ ss, Stacked y0 y1 ss ∧ (∀ s ∈ ss, StripOk I os s) ∧
      ∀ o, r o = if o ∈ os then { out o with els := (out o).els ++ ss.map fun s => s.el o } else out o := by
  intro n
  induction n with
  | zero => intro y0 out r _ h; simp [quadLoop] at h
  | succ n ih =>
    intro y0 out r hle h
    rw [quadLoop] at h
    by_cases hy : y0 < y1
    · rw [if_pos hy] at h
      cases ha : approximate I.solve I.accuracy (os.map fun o => (I.seg o).toCubic) y0 n y1 with
      | none => rw [ha] at h; simp at h
      | some p =>
        rw [ha] at h
        obtain ⟨y, qs⟩ := p
        obtain ⟨b1, b2, _⟩ := approximate_bounds hy ha
        obtain ⟨_, hq, hfit⟩ := approximate_spec ha
        subst hq
        obtain ⟨s, rfl, rfl, hs, hpush⟩ := pushQuads_ok I hn b1 out (fun o ho => hfit _ (List.mem_map.2 ⟨o, ho, rfl⟩))
        obtain ⟨ss, k1, k2, k3⟩ := ih b2 h
        refine ⟨s :: ss, .cons s b1 k1, ?_, ?_⟩
        · intro t ht
          rcases List.mem_cons.1 ht with rfl | ht
          · exact hs
          · exact k2 t ht
        · intro o
          rw [k3 o, hpush o]
          by_cases ho : o ∈ os
          · simp [ho, OPath.push]
          · simp [ho]
    · rw [if_neg hy] at h
      have : y0 = y1 := le_antisymm hle (not_lt.1 hy)
      subst this
      refine ⟨[], .nil _, by simp, fun o => ?_⟩
      simp only [Option.some.injEq] at h
      subst h
      split <;> simp

theorem quadLoop_total (I : Input) (ha : 0 < I.accuracy) (os : List Nat) (y1 : ℝ) (y0 : ℝ) (out : Nat → OPath) :
    ∃ n r, quadLoop I os y1 n y0 out = some r := by
  obtain ⟨k, hk⟩ : ∃ k : ℕ, y1 - y0 ≤ k * (I.accuracy / 2) := by
    obtain ⟨k, hk⟩ := exists_nat_gt ((y1 - y0) / (I.accuracy / 2))
    refine ⟨k, ?_⟩
    rw [div_lt_iff₀ (by linarith)] at hk
    exact hk.le
  induction k generalizing y0 out with
  | zero =>
    refine ⟨1, out, ?_⟩
    rw [quadLoop, if_neg (by simp at hk; linarith)]
  | succ k ih =>
    by_cases hy : y0 < y1
    · obtain ⟨n, ⟨y, qs⟩, hn⟩ := approximate_total I.solve ha (os.map fun o => (I.seg o).toCubic) y0 y1
      obtain ⟨b1, b2, b3⟩ := approximate_bounds hy hn
      obtain ⟨m, r, hm⟩ := ih y (pushQuads y0 y none (qs.zip os) out) (by
        rcases b3 with rfl | b3
        · rw [sub_self]; positivity
        · push_cast at hk; linarith)
      refine ⟨max n m + 1, r, ?_⟩
      rw [quadLoop, if_pos hy, approximate_mono (le_max_left n m) hn]
      exact quadLoop_mono _ _ _ (le_max_right n m) hm
    · exact ⟨1, out, by rw [quadLoop, if_neg hy]⟩

theorem ensure_spec (I : Input) (y0 : ℝ) : ∀ (os : List Nat) (out : Nat → OPath), os.Nodup → ∀ o,
    ensure I y0 os out o = if o ∈ os then ensureOne I y0 o (out o) else out o := by
  intro os
  induction os with
  | nil => intro out _ o; simp [ensure]
  | cons a os ih =>
    intro out hn o
    obtain ⟨hna, hn⟩ := List.nodup_cons.1 hn
    rw [ensure, ih _ hn]
    by_cases hoa : o = a
    · subst hoa; simp [hna]
    · by_cases ho : o ∈ os <;> simp [hoa, ho]

/-- The two cases in which `ordered_curves_all_close` has nothing to do: all original segments are lines, or there are two members, which both start
at `y0` and separate quickly, or both end at `y1` and approach each other quickly. -/
def LeftAlone (I : Input) (y0 y1 : ℝ) (os : List Nat) (out : Nat → OPath) : Prop :=
  (∀ o ∈ os, ∃ p q, I.seg o = .line p q) ∨
  ∃ a b, os = [a, b] ∧
    ((out a).stop.y = y0 ∧ (out b).stop.y = y0 ∧
        transversalAfter (nextSub (I.seg a) (out a) y1 (I.second a)) (nextSub (I.seg b) (out b) y1 (I.second b)) y1 = true ∨
     (I.second a).y = y1 ∧ (I.second b).y = y1 ∧
        transversalBefore (nextSub (I.seg a) (out a) y1 (I.second a)) (nextSub (I.seg b) (out b) y1 (I.second b)) y0 = true)

theorem isLine_iff (s : Seg) : isLine s = true ↔ ∃ p q, s = .line p q := by cases s <;> simp [isLine]

theorem separates_iff (I : Input) (y0 y1 : ℝ) (os : List Nat) (out : Nat → OPath) : separates I y0 y1 os out = true ↔
    ∃ a b, os = [a, b] ∧
    ((out a).stop.y = y0 ∧ (out b).stop.y = y0 ∧
        transversalAfter (nextSub (I.seg a) (out a) y1 (I.second a)) (nextSub (I.seg b) (out b) y1 (I.second b)) y1 = true ∨
     (I.second a).y = y1 ∧ (I.second b).y = y1 ∧
        transversalBefore (nextSub (I.seg a) (out a) y1 (I.second a)) (nextSub (I.seg b) (out b) y1 (I.second b)) y0 = true) := by
  unfold separates
  split
  · rename_i o0 o1
    simp only [Bool.or_eq_true, Bool.and_eq_true, decide_eq_true_eq, and_assoc]
    constructor
    · exact fun h => ⟨o0, o1, rfl, h⟩
    · rintro ⟨a, b, e, h⟩
      simp only [List.cons.injEq, and_true] at e
      obtain ⟨rfl, rfl⟩ := e
      exact h
  · rename_i hne
    simp only [Bool.false_eq_true, false_iff]
    rintro ⟨a, b, e, _⟩
    exact hne a b e

/-- The effect of `ordered_curves_all_close`: nothing, or some strips are appended to the paths of all members. -/
theorem allClose_spec (I : Input) {os : List Nat} (hn : os.Nodup) {y0 y1 : ℝ} (h01 : y0 ≤ y1) {n : ℕ} {out r : Nat → OPath}
    (h : allClose I n os y0 y1 out = some r) :
    LeftAlone I y0 y1 os out ∧ r = out ∨ ¬ LeftAlone I y0 y1 os out ∧ ∃ ss, Stacked y0 y1 ss ∧ (∀ s ∈ ss, StripOk I os s) ∧ ∀ o, r o =
      if o ∈ os then { ensureOne I y0 o (out o) with els := (ensureOne I y0 o (out o)).els ++ ss.map fun s => s.el o } else out o := by
  unfold allClose at h
  split at h
  · rename_i h1
    left
    refine ⟨.inl fun o ho => (isLine_iff _).1 (List.all_eq_true.1 h1 o ho), by simpa using h.symm⟩
  · rename_i h1
    split at h
    · rename_i h2
      left
      exact ⟨.inr ((separates_iff I y0 y1 os out).1 h2), by simpa using h.symm⟩
    · rename_i h2
      right
      refine ⟨?_, ?_⟩
      · rintro (h3 | h3)
        · exact h1 (List.all_eq_true.2 fun o ho => (isLine_iff _).2 (h3 o ho))
        · exact h2 ((separates_iff I y0 y1 os out).2 h3)
      obtain ⟨ss, h1, h2, h3⟩ := quadLoop_spec I hn y1 h01 h
      refine ⟨ss, h1, h2, fun o => ?_⟩
      rw [h3 o, ensure_spec I y0 os out hn o]
      by_cases ho : o ∈ os <;> simp [ho]

theorem allClose_mono (I : Input) {os : List Nat} {y0 y1 : ℝ} {n m : ℕ} (hm : n ≤ m) {out r : Nat → OPath}
    (h : allClose I n os y0 y1 out = some r) : allClose I m os y0 y1 out = some r := by
  unfold allClose at h ⊢
  by_cases h1 : (os.all fun o => isLine (I.seg o)) = true
  · rw [if_pos h1] at h ⊢; exact h
  · rw [if_neg h1] at h ⊢
    by_cases h2 : separates I y0 y1 os out = true
    · rw [if_pos h2] at h ⊢; exact h
    · rw [if_neg h2] at h ⊢; exact quadLoop_mono _ _ _ hm h

theorem allClose_total (I : Input) (ha : 0 < I.accuracy) (os : List Nat) (y0 y1 : ℝ) (out : Nat → OPath) :
    ∃ n r, allClose I n os y0 y1 out = some r := by
  unfold allClose
  split
  · exact ⟨0, _, rfl⟩
  · split
    · exact ⟨0, _, rfl⟩
    · exact quadLoop_total I ha os y1 y0 _

end Verif.Pos
