import Verif.Geom.ISub

/-! Lemmas for `intersect_cubics` (no claims): one step of the recursion. -/

namespace Verif.Geom
open Verif.Curve Filter

theorem push_stops {y0 : ℝ} {c c' : CurveOrder ℝ} {e : ℝ} {o : Order} (h : ∀ x ∈ c.cmps, y0 < x.stop) (he : y0 < e) (hp : c.push e o = some c') :
    ∀ x ∈ c'.cmps, y0 < x.stop := by
  have key : ∀ l : List (Entry ℝ), (∀ x ∈ l, x ∈ c.cmps ∨ x.stop = e) → ∀ x ∈ l, y0 < x.stop := by
    intro l hl x hx
    rcases hl x hx with h1 | h1
    · exact h x h1
    · rw [h1]; exact he
  unfold CurveOrder.push at hp
  cases hl : c.cmps.getLast? with
  | none =>
    rw [hl] at hp
    simp only [Option.some.injEq] at hp
    subst hp
    refine key _ ?_
    simp
  | some l =>
    rw [hl] at hp
    dsimp only at hp
    by_cases hlt : e < l.stop
    · rw [if_pos hlt] at hp; exact absurd hp (by simp)
    · rw [if_neg hlt] at hp
      split at hp
      all_goals first
        | (simp only [Option.some.injEq] at hp
           subst hp
           refine key _ fun x hx => ?_
           rcases List.mem_append.1 hx with hx | hx
           · first | exact Or.inl (List.mem_of_mem_dropLast hx) | exact Or.inl hx
           · right
             simp only [List.mem_cons, List.not_mem_nil, or_false] at hx
             first | (rw [hx]; done) | (rcases hx with rfl | rfl <;> rfl))
        | (split at hp
           · simp only [Option.some.injEq] at hp
             subst hp
             refine key _ fun x hx => ?_
             rcases List.mem_append.1 hx with hx | hx
             · exact Or.inl hx
             · right
               simp only [List.mem_cons, List.not_mem_nil, or_false] at hx
               rw [hx]
           · simp only [Option.some.injEq] at hp
             subst hp
             exact h)

theorem pushSign_stops {y0 y1 : ℝ} (hy : y0 < y1) {c c' : CurveOrder ℝ} {e : Option ℝ} {o : Order} (h : ∀ x ∈ c.cmps, y0 < x.stop)
    (hp : pushSign y0 y1 c e o = some c') : ∀ x ∈ c'.cmps, y0 < x.stop := by
  unfold pushSign at hp
  cases e with
  | none => simp only [Option.some.injEq] at hp; subst hp; exact h
  | some e =>
    dsimp only at hp
    cases hl : c.cmps.getLast? with
    | none =>
      rw [hl] at hp
      dsimp only at hp
      split at hp
      · next hc => exact push_stops h (lt_min hc.1 hy) hp
      · simp only [Option.some.injEq] at hp; subst hp; exact h
    | some l =>
      rw [hl] at hp
      dsimp only at hp
      split at hp
      · next hc => exact push_stops h (lt_min hc.1 hy) hp
      · simp only [Option.some.injEq] at hp; subst hp; exact h

theorem pushSigns_stops {y0 y1 : ℝ} (hy : y0 < y1) {l : List (Option ℝ × Order)} : ∀ {c c' : CurveOrder ℝ}, (∀ x ∈ c.cmps, y0 < x.stop) →
    pushSigns y0 y1 c l = some c' → ∀ x ∈ c'.cmps, y0 < x.stop := by
  induction l with
  | nil => intro c c' h hp; simp only [pushSigns, Option.some.injEq] at hp; subst hp; exact h
  | cons a l ih =>
    intro c c' h hp
    obtain ⟨e, o⟩ := a
    simp only [pushSigns] at hp
    cases h1 : pushSign y0 y1 c e o with
    | none => rw [h1] at hp; exact absurd hp (by simp)
    | some d => rw [h1] at hp; exact ih (pushSign_stops hy h h1) hp

theorem pushQuadraticSigns_stops {a b c lower upper y0 y1 s : ℝ} (hy : y0 < y1) {out : CurveOrder ℝ}
    (hp : pushQuadraticSigns a b c lower upper y0 y1 (CurveOrder.new s) = some out) : ∀ x ∈ out.cmps, y0 < x.stop := by
  have h0 : ∀ x ∈ (CurveOrder.new s : CurveOrder ℝ).cmps, y0 < x.stop := by simp [CurveOrder.new]
  unfold pushQuadraticSigns at hp
  split at hp
  · split at hp
    · exact pushSign_stops hy h0 hp
    · dsimp only at hp
      split at hp <;> exact pushSigns_stops hy h0 hp
  · dsimp only at hp
    split at hp <;> exact pushSigns_stops hy h0 hp

theorem pieces_map (f : ℝ → ℝ) (es : List (Entry ℝ)) : ∀ s, pieces (f s) (es.map fun e => ⟨f e.stop, e.order⟩) =
    (pieces s es).map fun p => ⟨f p.lo, f p.hi, p.order⟩ := by
  induction es with
  | nil => intro s; simp [pieces]
  | cons e es ih => intro s; simp only [pieces, List.map_cons]; rw [ih]

theorem tiled_map {f : ℝ → ℝ} (hf : Monotone f) {ps : List (Piece ℝ)} : ∀ {lo}, Tiled lo ps → Tiled (f lo) (ps.map fun p => ⟨f p.lo, f p.hi, p.order⟩) := by
  induction ps with
  | nil => intro lo h; trivial
  | cons p ps ih =>
    intro lo h
    cases ps with
    | nil => exact ⟨by dsimp only; rw [h.1], hf h.2⟩
    | cons q qs =>
      obtain ⟨h1, h2, h3, h4⟩ := h
      refine ⟨by dsimp only; rw [h1], hf h2, ?_, ih h4⟩
      obtain ⟨a, b⟩ := h3
      exact ⟨by dsimp only; rw [a], b⟩

theorem piece_lo {es : List (Entry ℝ)} : ∀ {s : ℝ} {p : Piece ℝ}, p ∈ pieces s es → (p.lo = s ∨ ∃ e ∈ es, p.lo = e.stop) ∧ ∃ e ∈ es, p.hi = e.stop := by
  induction es with
  | nil => intro s p hp; simp [pieces] at hp
  | cons e es ih =>
    intro s p hp
    simp only [pieces, List.mem_cons] at hp
    rcases hp with rfl | hp
    · exact ⟨Or.inl rfl, e, by simp, rfl⟩
    · obtain ⟨h1, e', h2, h3⟩ := ih hp
      refine ⟨Or.inr ?_, e', List.mem_cons_of_mem _ h2, h3⟩
      rcases h1 with h1 | ⟨e'', h1, h4⟩
      · exact ⟨e, by simp, h1⟩
      · exact ⟨e'', List.mem_cons_of_mem _ h1, h4⟩

/-- Going back to the original heights. -/
theorem unscale_ok {P : Order → ℝ → Prop} {y0 y1 : ℝ} (hlt : y0 < y1) {c : CurveOrder ℝ} (hst : c.start = y0 - (y0 + y1) / 2) (hw : WF c)
    (hE : Curve.EndsAt c ((y1 - (y0 + y1) / 2) * (1 / max (y1 - y0) 1))) (hS : Snd P ((y0 - (y0 + y1) / 2) * (1 / max (y1 - y0) 1)) c)
    (hstop : ∀ x ∈ c.cmps, (y0 - (y0 + y1) / 2) * (1 / max (y1 - y0) 1) < x.stop) :
    ∃ d, unscale ((y0 + y1) / 2) (max (y1 - y0) 1) y0 y1 c = some d ∧
      Done (fun o y => P o ((y - (y0 + y1) / 2) * (1 / max (y1 - y0) 1))) y0 y1 d := by
  obtain ⟨m, hm⟩ : ∃ m, m = (y0 + y1) / 2 := ⟨_, rfl⟩
  obtain ⟨u, hu⟩ : ∃ u, u = max (y1 - y0) 1 := ⟨_, rfl⟩
  have hmid : y0 < m ∧ m < y1 := by rw [hm]; constructor <;> linarith
  have hu1 : 1 ≤ u := by rw [hu]; exact le_max_right _ _
  rw [← hm] at hst
  rw [← hm, ← hu] at hE hS ⊢
  simp only [← hm, ← hu] at hstop
  clear hm hu
  have hu0 : 0 < u := by linarith
  have back : ∀ y, (y - m) * (1 / u) * u + m = y := by intro y; field_simp; ring
  obtain ⟨f, hf⟩ : ∃ f : ℝ → ℝ, f = fun e => min (max (e * u + m) y0) y1 := ⟨_, rfl⟩
  have hfm : Monotone f := by
    intro a b hab
    rw [hf]
    refine min_le_min_right y1 (max_le_max_right y0 ?_)
    have := mul_le_mul_of_nonneg_right hab hu0.le; linarith
  have hf0 : f (y0 - m) = y0 := by
    rw [hf]; dsimp only
    have : (y0 - m) * u + m ≤ y0 := by
      have := mul_le_mul_of_nonneg_left hu1 (show 0 ≤ m - y0 by linarith)
      linarith
    rw [max_eq_right this, min_eq_left hlt.le]
  have hf1 : f ((y1 - m) * (1 / u)) = y1 := by
    rw [hf]; dsimp only
    rw [back, max_eq_left hlt.le, min_self]
  have hfid : ∀ e, (y0 - m) * (1 / u) ≤ e → e ≤ (y1 - m) * (1 / u) → f e = e * u + m := by
    intro e h1 h2
    have k1 := mul_le_mul_of_nonneg_right h1 hu0.le
    have k2 := mul_le_mul_of_nonneg_right h2 hu0.le
    have b0 := back y0
    have b1 := back y1
    rw [hf]; dsimp only
    rw [max_eq_left (by linarith), min_eq_left (by linarith)]
  have hiter : (⟨y0, c.cmps.map fun e => ⟨f e.stop, e.order⟩⟩ : CurveOrder ℝ).iter = c.iter.map fun p => ⟨f p.lo, f p.hi, p.order⟩ := by
    unfold CurveOrder.iter
    dsimp only
    rw [← pieces_map f, hst, hf0]
  have hdone : Done (fun o y => P o ((y - m) * (1 / u))) y0 y1 ⟨y0, c.cmps.map fun e => ⟨f e.stop, e.order⟩⟩ := by
    refine ⟨⟨by simpa using hw.1, ?_⟩, rfl, ?_, hlt.le, ?_⟩
    · rw [hiter]
      have := tiled_map hfm hw.2
      rw [hst, hf0] at this
      exact this
    · obtain ⟨l, h1, h2⟩ := hE
      refine ⟨⟨f l.stop, l.order⟩, by simp [h1], ?_⟩
      dsimp only; rw [h2, hf1]
    · intro p hp t h0 h1 h2
      rw [hiter] at hp
      obtain ⟨q, hq, rfl⟩ := List.mem_map.1 hp
      dsimp only at h1 h2 ⊢
      obtain ⟨l1, e, he, l2⟩ := piece_lo hq
      have hhi := hstop e he
      rw [← l2] at hhi
      have hle := wf_hi_le hw hE q hq
      rw [hfid _ hhi.le hle] at h2
      have b0 := back y0
      have bt := back t
      have ge0 : (y0 - m) * (1 / u) ≤ (t - m) * (1 / u) := mul_le_mul_of_nonneg_right (by linarith) (by positivity)
      refine hS q hq _ ge0 ?_ ?_
      · rcases l1 with l1 | ⟨e', he', l1⟩
        · refine le_trans ?_ ge0
          rw [l1, hst]
          have : 0 ≤ 1 - 1 / u := by
            rw [sub_nonneg, div_le_one hu0]; exact hu1
          have := mul_nonneg (show 0 ≤ m - y0 by linarith) this
          linarith
        · have h3 := hstop e' he'
          rw [← l1] at h3
          have h4 : q.lo ≤ q.hi := (hw.2.lo_le q hq).2
          rw [hfid _ h3.le (h4.trans hle)] at h1
          have : q.lo * u ≤ (t - m) * (1 / u) * u := by linarith
          exact le_of_mul_le_mul_right this hu0
      · have : (t - m) * (1 / u) * u ≤ q.hi * u := by linarith
        exact le_of_mul_le_mul_right this hu0
  obtain ⟨d, h1, h2⟩ := setLast_done hdone le_rfl fun o t ho h1 h2 => by
    have : t = y1 := le_antisymm h2 h1
    rw [this]; exact ho
  refine ⟨d, ?_, h2⟩
  rw [unscale, ← h1, hf]

/-- What the recursion has to do for a pair of curves and a range of heights: with enough fuel it extends any sound comparison. -/
def Ok (solve : ℝ → ℝ → ℝ → ℝ → List ℝ) (tol acc : ℝ) (Q : Order → ℝ → Prop) (c0 c1 : Cubic) (y0 y1 : ℝ) : Prop :=
  ∀ᶠ n in atTop, ∀ s out, Grow Q s y0 out → ∃ out', intersectRec solve tol acc n c0 c1 y0 y1 out = some out' ∧ Done Q s y1 out'

section Step
variable {solve : ℝ → ℝ → ℝ → ℝ → List ℝ} {tol acc : ℝ} {Q : Order → ℝ → Prop} (hex : ∀ t, Q .left t → Q .right t → False)
include hex

theorem onePiece_ok {c0 c1 : Cubic} {y0 y1 spread : ℝ} {p : Piece ℝ} (hp0 : y0 ≤ p.lo) (hp : p.lo ≤ p.hi) (hp1 : p.hi ≤ y1)
    (hdef : p.order ≠ .ish → ∀ t, p.lo ≤ t → t ≤ p.hi → Q p.order t)
    (hish : p.order = .ish → (y1 - y0 ≤ acc ∨ spread ≤ acc) → ∀ t, p.lo ≤ t → t ≤ p.hi → Q .ish t)
    (hsub : ¬ (y1 - y0 ≤ acc) → ¬ (spread ≤ acc) → ∀ u v, y0 ≤ u → u ≤ v → v ≤ y1 → v - u ≤ (y1 - y0) / 2 → Ok solve tol acc Q c0 c1 u v) :
    ∀ᶠ n in atTop, ∀ s out, Grow Q s p.lo out →
      ∃ out', onePiece (intersectRec solve tol acc n c0 c1) acc y0 y1 spread out p = some out' ∧ Done Q s p.hi out' := by
  by_cases ho : p.order = .ish
  · by_cases hb : y1 - y0 ≤ acc ∨ spread ≤ acc
    · refine Eventually.of_forall fun n s out hg => ?_
      simp only [onePiece, if_pos ho, if_pos hb]
      exact grow_push hex hg hp fun t h1 h2 => by rw [ho]; exact hish ho hb t h1 h2
    · have hb' : ¬ (y1 - y0 ≤ acc) := fun h => hb (Or.inl h)
      have hb2 : ¬ (spread ≤ acc) := fun h => hb (Or.inr h)
      by_cases hc : p.hi - p.lo < 1 / 2 * (y1 - y0)
      · filter_upwards [hsub hb' hb2 p.lo p.hi hp0 hp hp1 (by linarith)] with n hn s out hg
        simp only [onePiece, if_pos ho, if_neg hb, if_pos hc]
        exact hn s out hg
      · have e1 := hsub hb' hb2 p.lo (1 / 2 * (p.lo + p.hi)) hp0 (by linarith) (by linarith) (by linarith)
        have e2 := hsub hb' hb2 (1 / 2 * (p.lo + p.hi)) p.hi (by linarith) (by linarith) hp1 (by linarith)
        filter_upwards [e1, e2] with n h1 h2 s out hg
        simp only [onePiece, if_pos ho, if_neg hb, if_neg hc]
        obtain ⟨o1, a, b⟩ := h1 s out hg
        obtain ⟨o2, c, d⟩ := h2 s o1 (Or.inl b)
        exact ⟨o2, by rw [a]; exact c, d⟩
  · refine Eventually.of_forall fun n s out hg => ?_
    simp only [onePiece, if_neg ho]
    exact grow_push hex hg hp (hdef ho)

theorem allPieces_ok {c0 c1 : Cubic} {y0 y1 spread : ℝ} {ps : List (Piece ℝ)} (hne : ps ≠ []) : ∀ {lo : ℝ}, y0 ≤ lo → Cons lo y1 ps →
    (∀ p ∈ ps, p.order ≠ .ish → ∀ t, p.lo ≤ t → t ≤ p.hi → Q p.order t) →
    (∀ p ∈ ps, p.order = .ish → (y1 - y0 ≤ acc ∨ spread ≤ acc) → ∀ t, p.lo ≤ t → t ≤ p.hi → Q .ish t) →
    (¬ (y1 - y0 ≤ acc) → ¬ (spread ≤ acc) → ∀ u v, y0 ≤ u → u ≤ v → v ≤ y1 → v - u ≤ (y1 - y0) / 2 → Ok solve tol acc Q c0 c1 u v) →
    ∀ᶠ n in atTop, ∀ s out, Grow Q s lo out →
      ∃ out', allPieces (intersectRec solve tol acc n c0 c1) acc y0 y1 spread out ps = some out' ∧ Done Q s y1 out' := by
  induction ps with
  | nil => exact absurd rfl hne
  | cons p ps ih =>
    intro lo hlo hc hd hi hsub
    obtain ⟨h1, h2, h3⟩ := hc
    subst h1
    have e1 := onePiece_ok (solve := solve) (tol := tol) (acc := acc) (spread := spread) hex hlo h2 h3.le (hd p (by simp)) (hi p (by simp)) hsub
    by_cases hps : ps = []
    · subst hps
      have h3 : p.hi = y1 := h3
      filter_upwards [e1] with n hn s out hg
      obtain ⟨o1, a, b⟩ := hn s out hg
      refine ⟨o1, ?_, by rw [← h3]; exact b⟩
      simp only [allPieces, a, Option.bind_some]
    · have e2 := ih hps (hlo.trans h2) h3 (fun q hq => hd q (List.mem_cons_of_mem _ hq)) (fun q hq => hi q (List.mem_cons_of_mem _ hq)) hsub
      filter_upwards [e1, e2] with n hn hn2 s out hg
      obtain ⟨o1, a, b⟩ := hn s out hg
      obtain ⟨o2, c, d⟩ := hn2 s o1 (Or.inl b)
      refine ⟨o2, ?_, d⟩
      simp only [allPieces, a, Option.bind_some]
      exact c

/-- One step. -/
theorem step_ok (hs : FindsRoots solve) (htol : 0 < tol) {c0 c1 : Cubic} (h0 : c0.Mono) (h1 : c1.Mono) {y0 y1 : ℝ}
    (s0 : c0.Spans y0 y1) (s1 : c1.Spans y0 y1)
    (hl : ∀ t, y0 ≤ t → t ≤ y1 → solveX c0 t + tol ≤ solveX c1 t → Q .left t) (hr : ∀ t, y0 ≤ t → t ≤ y1 → solveX c1 t + tol ≤ solveX c0 t → Q .right t)
    (hdist : maxDistance (ySubsegment c0 y0 y1) (ySubsegment c1 y0 y1) ≤ tol → ∀ t, y0 ≤ t → t ≤ y1 → Q .ish t)
    (hbox : y1 - y0 < acc → boxOrder (ySubsegment c0 y0 y1) (ySubsegment c1 y0 y1) tol = .ish → ∀ t, y0 ≤ t → t ≤ y1 → Q .ish t)
    (hest : ∀ t, y0 ≤ t → t ≤ y1 → |solveX c1 t - solveX c0 t| ≤ tol + acc ∨
      (y1 - y0 = acc ∧ |solveX c1 t - solveX c0 t| ≤ tol + ((diffEst solve (ySubsegment c0 y0 y1) (ySubsegment c1 y0 y1) y0 y1).dmax -
        (diffEst solve (ySubsegment c0 y0 y1) (ySubsegment c1 y0 y1) y0 y1).dmin)) → Q .ish t)
    (hrot : acc ≤ y1 - y0 → ∀ᶠ n in atTop, ∀ s out, Grow Q s y0 out →
      withRotation (intersectRec solve tol acc n) tol (ySubsegment c0 y0 y1) (ySubsegment c1 y0 y1) y0 y1 out = none ∨
      ∃ out', withRotation (intersectRec solve tol acc n) tol (ySubsegment c0 y0 y1) (ySubsegment c1 y0 y1) y0 y1 out = some (some out') ∧ Done Q s y1 out')
    (hacc : 0 < acc)
    (hsub : ¬ (y1 - y0 ≤ acc) → ¬ ((diffEst solve (ySubsegment c0 y0 y1) (ySubsegment c1 y0 y1) y0 y1).dmax -
        (diffEst solve (ySubsegment c0 y0 y1) (ySubsegment c1 y0 y1) y0 y1).dmin ≤ acc) →
      ∀ u v, y0 ≤ u → u ≤ v → v ≤ y1 → v - u ≤ (y1 - y0) / 2 → Ok solve tol acc Q c0 c1 u v) :
    Ok solve tol acc Q c0 c1 y0 y1 := by
  have succ : (∀ᶠ n in atTop, ∀ s out, Grow Q s y0 out → ∃ out', intersectRec solve tol acc (n + 1) c0 c1 y0 y1 out = some out' ∧ Done Q s y1 out') →
      Ok solve tol acc Q c0 c1 y0 y1 := by
    intro h
    obtain ⟨N, hN⟩ := eventually_atTop.1 h
    refine eventually_atTop.2 ⟨N + 1, fun n hn => ?_⟩
    obtain ⟨k, rfl⟩ : ∃ k, n = k + 1 := ⟨n - 1, by omega⟩
    exact hN k (by omega)
  have hle := s0.2.1
  refine succ ?_
  by_cases hd : maxDistance (ySubsegment c0 y0 y1) (ySubsegment c1 y0 y1) ≤ tol
  · refine Eventually.of_forall fun n s out hg => ?_
    simp only [intersectRec, if_pos hd]
    exact grow_push hex hg hle (hdist hd)
  by_cases hb : y1 - y0 < acc
  · refine Eventually.of_forall fun n s out hg => ?_
    simp only [intersectRec, if_neg hd, if_pos hb]
    refine grow_push hex hg hle fun t ht0 ht1 => ?_
    have b0 := box_bounds h0 s0 ht0 ht1
    have b1 := box_bounds h1 s1 ht0 ht1
    cases ho : boxOrder (ySubsegment c0 y0 y1) (ySubsegment c1 y0 y1) tol with
    | ish => exact hbox hb ho t ht0 ht1
    | left =>
      refine hl t ht0 ht1 ?_
      unfold boxOrder at ho
      split at ho
      · linarith
      · split at ho <;> exact absurd ho (by simp)
    | right =>
      refine hr t ht0 ht1 ?_
      unfold boxOrder at ho
      split at ho
      · exact absurd ho (by simp)
      · split at ho
        · linarith
        · exact absurd ho (by simp)
  have hlt : y0 < y1 := by linarith
  obtain ⟨d, hdef⟩ : ∃ d, d = diffEst solve (ySubsegment c0 y0 y1) (ySubsegment c1 y0 y1) y0 y1 := ⟨_, rfl⟩
  have hdiff : ∀ t, y0 ≤ t → t ≤ y1 → _ := fun t ht0 ht1 => diffEst_ok solve hs h0 h1 s0 s1 hlt ht0 ht1
  simp only [← hdef] at hdiff
  have hdd : d.dmin ≤ d.dmax := by have := hdiff y0 le_rfl hle; linarith [this.1, this.2]
  have hsc : 0 < 1 / max (y1 - y0) 1 := by positivity
  have hs1 : 1 / max (y1 - y0) 1 ≤ 1 := by rw [div_le_one (by positivity)]; exact le_max_right _ _
  obtain ⟨sc, e1, e2, e3, e4, e5⟩ := pushQuadraticSigns_ok d.c2 d.c1 d.c0 (-d.dmax - tol) (-d.dmin + tol)
    ((y0 - (y0 + y1) / 2) * (1 / max (y1 - y0) 1)) ((y1 - (y0 + y1) / 2) * (1 / max (y1 - y0) 1)) (y0 - (y0 + y1) / 2) (by linarith)
    (by have := mul_nonneg (show 0 ≤ (y0 + y1) / 2 - y0 by linarith) (sub_nonneg.2 hs1); linarith)
    (mul_lt_mul_of_pos_right (by linarith) hsc)
  have e6 := pushQuadraticSigns_stops (mul_lt_mul_of_pos_right (by linarith) hsc) e1
  obtain ⟨us, f1, f2⟩ := unscale_ok hlt e2 e3 e4 e5 e6
  have hcons := cons_of_wf f2.1 f2.2.2.1
  rw [f2.2.1] at hcons
  have hne : us.iter ≠ [] := by rw [CurveOrder.iter, Ne, pieces_eq_nil]; exact f2.1.1
  have hquad : ∀ x, d.c2 * x * x + d.c1 * x + d.c0 = d.eval x := by intro x; unfold EstParab.eval; ring
  have main := allPieces_ok (solve := solve) (tol := tol) (acc := acc) (c0 := c0) (c1 := c1) (spread := d.dmax - d.dmin) hex hne le_rfl hcons
    (fun p hp ho t ht0 ht1 => by
      have hm := hcons.mem p hp
      have hq := f2.2.2.2.2 p hp t (hm.1.trans ht0) ht0 ht1
      have hd := hdiff t (hm.1.trans ht0) (ht1.trans hm.2.2)
      cases hpo : p.order with
      | ish => exact absurd hpo ho
      | left =>
        rw [hpo] at hq
        simp only [QuadOrd, hquad] at hq
        exact hl t (hm.1.trans ht0) (ht1.trans hm.2.2) (by linarith [hd.1])
      | right =>
        rw [hpo] at hq
        simp only [QuadOrd, hquad] at hq
        exact hr t (hm.1.trans ht0) (ht1.trans hm.2.2) (by linarith [hd.2]))
    (fun p hp ho hbr t ht0 ht1 => by
      have hm := hcons.mem p hp
      have hq := f2.2.2.2.2 p hp t (hm.1.trans ht0) ht0 ht1
      have hd := hdiff t (hm.1.trans ht0) (ht1.trans hm.2.2)
      rw [ho] at hq
      simp only [QuadOrd, hquad] at hq
      refine hest t (hm.1.trans ht0) (ht1.trans hm.2.2) ?_
      rcases hbr with hbr | hbr
      · right
        refine ⟨by linarith, ?_⟩
        rw [← hdef, abs_le]
        constructor <;> linarith [hd.1, hd.2]
      · left
        rw [abs_le]
        constructor <;> linarith [hd.1, hd.2])
    (fun h1 h2 => hsub h1 (by rw [← hdef]; exact h2))
  filter_upwards [hrot (not_lt.1 hb), main] with n h2 h3 s out hg
  simp only [intersectRec, if_neg hd, if_neg hb]
  rcases h2 s out hg with h2 | ⟨out', h2, h4⟩
  · rw [h2]
    dsimp only
    rw [← hdef, e1]
    dsimp only
    rw [f1]
    exact h3 s out hg
  · rw [h2]
    exact ⟨out', rfl, h4⟩

end Step

end Verif.Geom
