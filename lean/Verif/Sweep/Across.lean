import Verif.Sweep.Main

/-!
# A line across the result

The order of the output segments that cross a height (C57) is the order of the input segments on the sweep line that was
the last one not below this height, and the winding numbers along it are the sums of the contributions of the input segments.
-/

namespace Verif.Sweep
open Verif.Curve Verif.Range Verif.Topo Verif.Scan Verif.Merge Verif.Contours
set_option linter.unusedSectionVars false

variable {K : Type} [LinearOrder K] {W : Type} [AddCommGroup W] [DecidableEq W]
variable {E : Env K} {single : Nat → Bool → W} {fuel2 fuel : Nat} {t : Topo K W}

theorem Beyond.keep (hsingle : ∀ s b, single s (!b) = - single s b) {orient : Nat → Bool} {z : K} {S F : SState K W} (hS : Steps single orient SState.init S)
    (h : Beyond single orient z S F) : Keep z S.t F.t := by
  rcases h with rfl | ⟨S', h1, h2, h3⟩
  · exact Keep.refl _ _
  · exact (h1.keep hsingle hS.run h2).trans (Steps.keep hsingle (.tail _ _ _ hS h1) h3 h2)

/-- In a chain of visits at increasing heights every height in between is between two consecutive visits. -/
theorem visits_between {z : K} : ∀ (vs : List (Visit K)) (v w : Visit K), vs.head? = some v → vs.getLast? = some w → v.y ≤ z → z < w.y →
    ∃ l a b l', vs = l ++ a :: b :: l' ∧ a.y ≤ z ∧ z < b.y := by
  intro vs
  induction vs with
  | nil => intro v w h; simp at h
  | cons a vs ih =>
    intro v w h1 h2 h3 h4
    obtain rfl : a = v := by simpa using h1
    cases vs with
    | nil =>
      obtain rfl : a = w := by simpa using h2
      exact absurd h3 (not_le.2 h4)
    | cons b vs =>
      rcases lt_or_ge z b.y with hb | hb
      · exact ⟨[], a, b, vs, rfl, h3, hb⟩
      · rw [List.getLast?_cons_cons] at h2
        obtain ⟨l, c, d, l', e, h5, h6⟩ := ih b w rfl h2 hb h4
        exact ⟨a :: l, c, d, l', by rw [e]; rfl, h5, h6⟩

/-- Across a height: `L` is the order of the output segments that cross it. -/
theorem across (hV : E.Valid single fuel2) (h : fromSegments E single fuel2 fuel = some t) :
    ∃ m, buildScanLineOrders t = some m ∧
      ∀ z : K, ∃ (st : State K) (L : List Nat), (st = State.new E ∨ (Reached E fuel2 st ∧ st.y ≤ z)) ∧ LastBefore E fuel2 z st ∧
        L.Nodup ∧ (∀ o, o ∈ L ↔ AliveAt t o z) ∧
        (∀ l1 o l2, L = l1 ++ o :: l2 → neighborAfter (m.west o) z = l1.getLast? ∧ neighborAfter (m.east o) z = l2.head?) ∧
        L.map t.origSeg = newSegs st.line ∧ (L.map t.origSeg).Nodup ∧
        (∀ a, a ∈ L.map t.origSeg ↔ a ∈ E.segs ∧ E.startY a ≤ z ∧ z < E.endY a) ∧
        (∀ l1 o l2, L = l1 ++ o :: l2 →
          (t.winding o).cw = (l1.map fun i => single (t.origSeg i) (E.orient (t.origSeg i))).sum ∧
          (t.winding o).ccw = ((l1 ++ [o]).map fun i => single (t.origSeg i) (E.orient (t.origSeg i))).sum) ∧
        (L.map fun i => single (t.origSeg i) (E.orient (t.origSeg i))).sum = 0 := by
  obtain ⟨F, f1, rfl, ft, f4, f5, f6, f7⟩ := fromSegments_lines hV.sched hV.exact hV.pp hV.contours hV.ord h
  have f3 := ft.steps
  obtain ⟨m, b1, b2, b3, b4, b5⟩ := build_spec hV.neg f3 f1
  refine ⟨m, b1, fun z => ?_⟩
  obtain ⟨st, S, g1, g2, g3, g4, g5, g6⟩ := f7 z
  have k := g6.keep hV.neg g3
  obtain ⟨o1, o2, o3, -⟩ := order_at hV.neg f3 f1 b2 b3 b4 b5 g3 g5 k
  have inv := g3.run.inv hV.neg
  have hout : ∀ a ∈ S.line, S.t.openSegs a = [out S.t a] ∧ out S.t a < S.t.n ∧ F.t.origSeg (out S.t a) = a := by
    intro a ha
    obtain ⟨o, _, _, _, h1, _⟩ := inv.openIn a ha
    have h2 := (inv.good.openIff o a).1 (by rw [h1]; simp)
    have e : out S.t a = o := by unfold out; rw [h1]; rfl
    rw [e]
    exact ⟨h1, h2.1, by rw [k.orig o h2.1]; exact h2.2.1⟩
  have horig : ∀ l : List Nat, (∀ a ∈ l, a ∈ S.line) → (l.map (out S.t)).map F.t.origSeg = l := by
    intro l hl
    rw [List.map_map]
    conv_rhs => rw [← List.map_id l]
    exact List.map_congr_left fun a ha => (hout a (hl a ha)).2.2
  have hsum : ∀ l : List Nat, (∀ a ∈ l, a ∈ S.line) →
      ((l.map (out S.t)).map fun i => single (F.t.origSeg i) (E.orient (F.t.origSeg i))).sum = (l.map fun a => single a (E.orient a)).sum := by
    intro l hl
    rw [List.map_map]
    congr 1
    exact List.map_congr_left fun a ha => by simp only [Function.comp]; rw [(hout a (hl a ha)).2.2]
  obtain ⟨w1, w2⟩ := C25_sweep single E.orient hV.neg _ _ _ g3.run
  refine ⟨st, S.line.map (out S.t), g1, g2, o1, o2, o3, ?_, ?_, ?_, ?_, ?_⟩
  · rw [horig _ fun _ h => h, g4]
  · rw [horig _ fun _ h => h]; exact inv.nodup
  · intro a
    constructor
    · intro ha
      obtain ⟨o, ho, rfl⟩ := List.mem_map.1 ha
      obtain ⟨hn, p, q, hr, hp, hq⟩ := (o2 o).1 ho
      have hm := (C61_rings hV h).1 o hn
      refine ⟨hm, ?_⟩
      obtain ⟨vs, ⟨v0, c1, c2, -⟩, ⟨v1, d1, d2, -⟩, c3, -, c5⟩ := C61_traced hV h _ hm
      have hinc : vs.IsChain fun v w => v.y < w.y := by
        rw [List.isChain_iff_forall_rel_of_append_cons_cons]
        intro a b l1 l2 e
        exact (c3 l1 a b l2 e).1
      have hpw := List.isChain_iff_pairwise.1 hinc
      rcases c5 o p q ⟨hn, rfl, hr⟩ with ⟨v, _, e1, e2, _⟩ | ⟨l, v, w, l', e1, rfl, rfl⟩
      · rw [e1] at hp; rw [e2] at hq
        exact absurd hp (not_le.2 hq)
      · constructor
        · refine le_trans ?_ hp
          rw [← c2]
          subst e1
          cases l with
          | nil =>
            obtain rfl : v = v0 := by simpa using c1
            exact le_rfl
          | cons x l =>
            obtain rfl : x = v0 := by simpa using c1
            exact ((List.pairwise_cons.1 hpw).1 v (by simp)).le
        · refine lt_of_lt_of_le hq ?_
          rw [← d2]
          subst e1
          rcases List.eq_nil_or_concat l' with rfl | ⟨l'', x, rfl⟩
          · obtain rfl : w = v1 := by simpa using d1
            exact le_rfl
          · obtain rfl : x = v1 := by
              simpa [List.getLast?_append, List.getLast?_cons] using d1
            have : l ++ v :: w :: l''.concat x = (l ++ [v]) ++ (w :: (l'' ++ [x])) := by simp
            rw [this] at hpw
            exact ((List.pairwise_cons.1 (List.pairwise_append.1 hpw).2.1).1 x (by simp)).le
    · rintro ⟨ha, h1, h2⟩
      obtain ⟨vs, ⟨v0, c1, c2, -⟩, ⟨v1, d1, d2, -⟩, c3, -, -⟩ := C61_traced hV h a ha
      obtain ⟨l, v, w, l', e, e1, e2⟩ := visits_between (z := z) vs v0 v1 c1 d1 (by rw [c2]; exact h1) (by rw [d2]; exact h2)
      obtain ⟨_, ⟨i, ⟨hi, ho, hr⟩, _⟩, _⟩ := c3 l v w l' e
      exact List.mem_map.2 ⟨i, (o2 i).2 ⟨hi, _, _, hr, e1, e2⟩, ho⟩
  · intro l1 o l2 hl
    obtain ⟨A, R, r1, r2, r3⟩ := List.map_eq_append_iff.1 hl
    obtain ⟨a, B, rfl, rfl, r5⟩ := List.map_eq_cons_iff.1 r3
    have hA : ∀ x ∈ A, x ∈ S.line := fun x hx => by rw [r1]; simp [hx]
    have hAa : ∀ x ∈ A ++ [a], x ∈ S.line := fun x hx => by rw [r1]; simp only [List.mem_append, List.mem_singleton] at hx; simp only [List.mem_append, List.mem_cons]; tauto
    obtain ⟨p1, p2, p3⟩ := hout a (by rw [r1]; simp)
    have hcw : (F.t.winding (out S.t a)).cw = (A.map fun a => single a (E.orient a)).sum := by
      rw [k.wind _ p2]; exact w1 A a B r1 _ p1
    refine ⟨by rw [hcw, ← r2, hsum A hA], ?_⟩
    have : l1 ++ [out S.t a] = (A ++ [a]).map (out S.t) := by rw [← r2]; simp
    rw [this, hsum _ hAa, List.map_append, List.sum_append, ← hcw]
    have hsd := inv.good.sgn (out S.t a) p2
    obtain ⟨o', y, e, l, q1, q2, q3⟩ := inv.openIn a (by rw [r1]; simp)
    rw [p1] at q1
    obtain rfl : out S.t a = o' := by simpa using q1
    have ho := (inv.good.openIff (out S.t a) a).1 (by rw [p1]; simp)
    have hs : e.segIdx = a := by rw [← q3.2.1]; exact ho.2.1
    rw [k.wind _ p2, hsd, ho.2.1, q3.2.2.1, hs]; simp
  · rw [hsum _ fun _ h => h]; exact w2

end Verif.Sweep
