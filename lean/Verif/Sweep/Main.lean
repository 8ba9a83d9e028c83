import Verif.Sweep.Cross
import Verif.Merge.Props

/-!
# The whole driver (C61)

`Topology::from_segments` (topology.rs:490-537) runs the sweep and hands every range to `process_sweep_line_range`. The
properties of the topology (C23-C26, C50, C57) were proved for every history that satisfies the contract between the two; here
the contract is discharged: whatever the driver returns has these properties.
-/

namespace Verif.Sweep
open Verif.Curve Verif.Range Verif.Topo Verif.Scan Verif.Merge Verif.Contours
set_option linter.unusedSectionVars false

variable {K : Type} [LinearOrder K] {W : Type} [AddCommGroup W]

/-- The events of one segment are at increasing heights. -/
theorem evs_increasing {single : Nat → Bool → W} {orient : Nat → Bool} {hist : List (K × OutputEvent K)} {line : List Nat} {t : Topo K W}
    (h : Run single orient hist line t) (a : Nat) : (evs hist a).Pairwise fun p q => p.1 < q.1 := by
  induction h with
  | init => simp [evs]
  | range hist A B y E Eo En east ch t t' _ H _ ih =>
    rw [evs_append, List.pairwise_append]
    refine ⟨ih, ?_, ?_⟩
    · by_cases he : ∃ e ∈ E, e.segIdx = a
      · obtain ⟨e, he, rfl⟩ := he
        rw [evs_one E y H.spec.nodup e he]
        simp
      · rw [evs_none E y a (by intro e he' hh; exact he ⟨e, he', hh⟩)]
        simp
    · intro p hp q hq
      unfold evs at hp hq
      rw [List.mem_filter, decide_eq_true_eq] at hp hq
      obtain ⟨e, he, rfl⟩ := List.mem_map.1 hq.1
      exact H.once p hp.1 e he (hp.2.trans hq.2.symm)

/-- What the driver is given: a schedule of the segments, exact end positions, a binary search, closed contours, and an order of
the sweep line that is right up to twice the tolerance. -/
structure Env.Valid (E : Env K) (single : Nat → Bool → W) (fuel : Nat) : Prop where
  sched : E.Sched
  exact : E.Exact
  pp : E.PP
  contours : E.Contours single
  ord : ∀ s, Reached E fuel s → OrdC E s.y (s.line.map Entry.seg)
  neg : ∀ s b, single s (!b) = - single s b

variable {E : Env K} {single : Nat → Bool → W} {fuel2 fuel : Nat} {t : Topo K W}

theorem driver_run (hV : E.Valid single fuel2) (h : fromSegments E single fuel2 fuel = some t) :
    ∃ H, Run single E.orient H [] t ∧ (∀ q ∈ H, EvOk E q.1 q.2) ∧ (∀ a ∈ E.segs, ∃ q ∈ H, q.1 = E.startY a ∧ q.2.segIdx = a) ∧
      (∀ a ∈ E.segs, ∃ q ∈ H, q.1 = E.endY a ∧ q.2.segIdx = a) := by
  obtain ⟨H, yl, done, h1, h2, h3, h4⟩ := fromSegments_spec hV.sched hV.exact hV.pp hV.contours hV.ord h
  exact ⟨H, h1.run, h2, h3, h4⟩

/-- A visit of a segment at a height: it arrives at `x0` and leaves at `x1`. -/
structure Visit (K : Type) where
  y : K
  x0 : K
  x1 : K

/-- Output segment `i` belongs to `a` and runs from `p` to `q`, in the direction of the sweep. -/
def PieceOf (t : Topo K W) (a i : Nat) (p q : K × K) : Prop := i < t.n ∧ t.origSeg i = a ∧ Runs t i p q

/-- The trace of an input segment, with the events it comes from. -/
theorem traced (hV : E.Valid single fuel2) (h : fromSegments E single fuel2 fuel = some t) (a : Nat) (ha : a ∈ E.entrances.map Prod.snd) :
    ∃ vs : List (Visit K),
      (∃ v, vs.head? = some v ∧ v.y = E.startY a ∧ v.x0 = E.startX a) ∧
      (∃ v, vs.getLast? = some v ∧ v.y = E.endY a ∧ v.x1 = E.endX a) ∧
      (∀ l v w l', vs = l ++ v :: w :: l' → v.y < w.y ∧
        (∃ i, PieceOf t a i (v.x1, v.y) (w.x0, w.y) ∧ t.positive i = E.orient a) ∧
        ∀ i j, PieceOf t a i (v.x1, v.y) (w.x0, w.y) → PieceOf t a j (v.x1, v.y) (w.x0, w.y) → i = j) ∧
      (∀ v ∈ vs, ∀ z, min v.x0 v.x1 ≤ z → z < max v.x0 v.x1 →
        ∃ i p q, PieceOf t a i (p, v.y) (q, v.y) ∧ min v.x0 v.x1 ≤ p ∧ p ≤ z ∧ z < q ∧ q ≤ max v.x0 v.x1) ∧
      (∀ i p q, PieceOf t a i p q →
        (∃ v ∈ vs, p.2 = v.y ∧ q.2 = v.y ∧ min v.x0 v.x1 ≤ p.1 ∧ p.1 < q.1 ∧ q.1 ≤ max v.x0 v.x1) ∨
        ∃ l v w l', vs = l ++ v :: w :: l' ∧ p = (v.x1, v.y) ∧ q = (w.x0, w.y)) ∧
      ∀ v ∈ vs, ∃ e, Emitted E fuel2 v.y e ∧ e.segIdx = a ∧ e.x0 = v.x0 ∧ e.x1 = v.x1 := by
  obtain ⟨H, yl, done, hr, hok', hst, hsp⟩ := fromSegments_emitted hV.sched hV.exact hV.pp hV.contours hV.ord h
  have hok : ∀ q ∈ H, EvOk E q.1 q.2 := fun q hq => (hok' q hq).1
  replace hr := hr.run
  have hinc := evs_increasing hr a
  have hdown := hV.sched.down a ha
  have hmem : ∀ q ∈ evs H a, EvOk E q.1 q.2 ∧ q.2.segIdx = a := by
    intro q hq
    unfold evs at hq
    rw [List.mem_filter, decide_eq_true_eq] at hq
    exact ⟨hok q hq.1, hq.2⟩
  have hlo : ∀ q ∈ evs H a, E.startY a ≤ q.1 ∧ q.1 ≤ E.endY a := by
    intro q hq
    obtain ⟨h1, h2⟩ := hmem q hq
    constructor
    · cases hc : q.2.connectedAbove with
      | false => rw [← h2]; exact (h1.starts hc).1.le
      | true => rw [← h2]; exact (h1.above hc).le
    · cases hc : q.2.connectedBelow with
      | false => rw [← h2]; exact (h1.stops hc).1.ge
      | true => rw [← h2]; exact (h1.below hc).le
  have hin : ∀ q ∈ H, q.2.segIdx = a → q ∈ evs H a := by
    intro q hq hqa
    unfold evs
    rw [List.mem_filter, decide_eq_true_eq]
    exact ⟨hq, hqa⟩
  let f : K × OutputEvent K → Visit K := fun q => ⟨q.1, q.2.x0, q.2.x1⟩
  have hsplit : ∀ l v w l', (evs H a).map f = l ++ v :: w :: l' →
      ∃ l0 q r l0', evs H a = l0 ++ q :: r :: l0' ∧ v = f q ∧ w = f r := by
    intro l v w l' hl
    obtain ⟨l0, m, h1, h2, h3⟩ := List.map_eq_append_iff.1 hl
    obtain ⟨q, m', rfl, h4, h5⟩ := List.map_eq_cons_iff.1 h3
    obtain ⟨r, m'', rfl, h6, h7⟩ := List.map_eq_cons_iff.1 h5
    exact ⟨l0, q, r, m'', h1, h4.symm, h6.symm⟩
  refine ⟨(evs H a).map f, ?_, ?_, ?_, ?_, ?_, ?_⟩
  · obtain ⟨q, hq, hq1, hq2⟩ := hst a ha
    have hq' := hin q hq hq2
    cases hl : evs H a with
    | nil => rw [hl] at hq'; simp at hq'
    | cons p l =>
      rw [hl] at hq' hinc
      have hp : p ∈ evs H a := by rw [hl]; simp
      have hpy : p.1 = E.startY a := by
        rcases List.mem_cons.1 hq' with rfl | hm
        · exact hq1
        · have := (List.pairwise_cons.1 hinc).1 q hm
          rw [hq1] at this
          exact absurd (hlo p hp).1 (not_le.2 this)
      refine ⟨f p, rfl, hpy, ?_⟩
      obtain ⟨h1, h2⟩ := hmem p hp
      have hc : p.2.connectedAbove = false := by
        cases hc : p.2.connectedAbove with
        | false => rfl
        | true =>
          have := h1.above hc
          rw [h2, hpy] at this
          exact absurd this (lt_irrefl _)
      rw [← h2]; exact (h1.starts hc).2
  · obtain ⟨q, hq, hq1, hq2⟩ := hsp a ha
    have hq' := hin q hq hq2
    rcases List.eq_nil_or_concat (evs H a) with hl | ⟨l, p, hl⟩
    · rw [hl] at hq'; simp at hq'
    · rw [List.concat_eq_append] at hl
      have hp : p ∈ evs H a := by rw [hl]; simp
      rw [hl] at hq' hinc
      have hpy : p.1 = E.endY a := by
        rcases List.mem_append.1 hq' with hm | hm
        · have := (List.pairwise_append.1 hinc).2.2 q hm p (by simp)
          rw [hq1] at this
          exact absurd (hlo p hp).2 (not_le.2 this)
        · have : q = p := by simpa using hm
          rw [← this]; exact hq1
      refine ⟨f p, by rw [hl]; simp, hpy, ?_⟩
      obtain ⟨h1, h2⟩ := hmem p hp
      have hc : p.2.connectedBelow = false := by
        cases hc : p.2.connectedBelow with
        | false => rfl
        | true =>
          have := h1.below hc
          rw [h2, hpy] at this
          exact absurd this (lt_irrefl _)
      rw [← h2]; exact (h1.stops hc).2
  · intro l v w l' hl
    obtain ⟨l0, q, r, l0', h1, rfl, rfl⟩ := hsplit l v w l' hl
    have hlt : q.1 < r.1 := by
      rw [h1, List.pairwise_append] at hinc
      exact (List.pairwise_cons.1 hinc.2.1).1 r (by simp)
    have hq : q ∈ evs H a := by rw [h1]; simp
    have hr' : r ∈ evs H a := by rw [h1]; simp
    have hb : q.2.connectedBelow = true := by
      cases hc : q.2.connectedBelow with
      | true => rfl
      | false =>
        obtain ⟨k1, k2⟩ := hmem q hq
        have := (k1.stops hc).1
        rw [k2] at this
        rw [← this] at hlt
        exact absurd (hlo r hr').2 (not_le.2 hlt)
    obtain ⟨i, hi, ⟨k1, k2, k3, _⟩, huniq⟩ := C24_traced single E.orient hV.neg H [] t hr a l0 q.1 q.2 r.1 r.2 l0' h1 hb
    refine ⟨hlt, ⟨i, ⟨hi, k1, k3⟩, k2⟩, ?_⟩
    intro i' j' ⟨a1, a2, a3⟩ ⟨b1, b2, b3⟩
    rw [huniq i' a1 a2 a3, huniq j' b1 b2 b3]
  · intro v hv z hz1 hz2
    obtain ⟨q, hq, rfl⟩ := List.mem_map.1 hv
    obtain ⟨k1, k2⟩ := hmem q hq
    have hqH : (q.1, q.2) ∈ H := by
      unfold evs at hq
      exact (List.mem_filter.1 hq).1
    obtain ⟨i, p, r, h1, h2, h3, h4, h5, h6, h7, _⟩ := C24_horizontal_cover single E.orient hV.neg H [] t hr q.1 q.2 hqH z hz1 hz2
    exact ⟨i, p, r, ⟨h1, by rw [h2]; exact k2, h7⟩, h3, h4, h5, h6⟩
  · intro i p q ⟨h1, h2, h3⟩
    obtain ⟨p', q', m1, m2, m3, m4⟩ := h3
    rcases C24_pieces single E.orient hV.neg H t hr i h1 with ⟨y, e, x0, x1, k1, k2, k3, k4, k5, p2, q2, n1, n2, n3, n4⟩ |
      ⟨l, y, e, y', e', l', k1, _, _, _, p2, q2, n1, n2, n3, n4⟩
    · left
      rw [n1, Option.some.injEq] at m1
      rw [n2, Option.some.injEq] at m2
      subst m1; subst m2
      rw [n3, Option.some.injEq] at m3
      rw [n4, Option.some.injEq] at m4
      subst m3; subst m4
      exact ⟨f (y, e), List.mem_map.2 ⟨(y, e), hin _ k1 (by rw [← k2]; exact h2), rfl⟩, rfl, rfl, k3, k4, k5⟩
    · right
      rw [n1, Option.some.injEq] at m1
      rw [n2, Option.some.injEq] at m2
      subst m1; subst m2
      rw [n3, Option.some.injEq] at m3
      rw [n4, Option.some.injEq] at m4
      subst m3; subst m4
      rw [h2] at k1
      refine ⟨l.map f, f (y, e), f (y', e'), l'.map f, ?_, rfl, rfl⟩
      show (evs H a).map f = _
      unfold evs
      rw [k1]
      simp
  · intro v hv
    obtain ⟨q, hq, rfl⟩ := List.mem_map.1 hv
    obtain ⟨_, k2⟩ := hmem q hq
    unfold evs at hq
    exact ⟨q.2, (hok' q (List.mem_filter.1 hq).1).2, k2, rfl, rfl⟩

/-- C61: every input segment is traced by a chain of visits at increasing heights. The first one is at the start of the segment, the
last one at its end, exactly. Between two consecutive visits there is exactly one output segment of the input segment, with
its orientation; within a visit the output segments cover the stretch from `x0` to `x1`. -/
theorem C61_traced (hV : E.Valid single fuel2) (h : fromSegments E single fuel2 fuel = some t) (a : Nat) (ha : a ∈ E.entrances.map Prod.snd) :
    ∃ vs : List (Visit K),
      (∃ v, vs.head? = some v ∧ v.y = E.startY a ∧ v.x0 = E.startX a) ∧
      (∃ v, vs.getLast? = some v ∧ v.y = E.endY a ∧ v.x1 = E.endX a) ∧
      (∀ l v w l', vs = l ++ v :: w :: l' → v.y < w.y ∧
        (∃ i, PieceOf t a i (v.x1, v.y) (w.x0, w.y) ∧ t.positive i = E.orient a) ∧
        ∀ i j, PieceOf t a i (v.x1, v.y) (w.x0, w.y) → PieceOf t a j (v.x1, v.y) (w.x0, w.y) → i = j) ∧
      (∀ v ∈ vs, ∀ z, min v.x0 v.x1 ≤ z → z < max v.x0 v.x1 →
        ∃ i p q, PieceOf t a i (p, v.y) (q, v.y) ∧ min v.x0 v.x1 ≤ p ∧ p ≤ z ∧ z < q ∧ q ≤ max v.x0 v.x1) ∧
      (∀ i p q, PieceOf t a i p q →
        (∃ v ∈ vs, p.2 = v.y ∧ q.2 = v.y ∧ min v.x0 v.x1 ≤ p.1 ∧ p.1 < q.1 ∧ q.1 ≤ max v.x0 v.x1) ∨
        ∃ l v w l', vs = l ++ v :: w :: l' ∧ p = (v.x1, v.y) ∧ q = (w.x0, w.y)) := by
  obtain ⟨vs, h1, h2, h3, h4, h5, -⟩ := traced hV h a ha
  exact ⟨vs, h1, h2, h3, h4, h5⟩

/-- C61: what the driver returns is a map of the plane: every output segment has both ends among the points, the points are in
the order of the sweep, and around each point there is one ring of half-segments. -/
theorem C61_rings (hV : E.Valid single fuel2) (h : fromSegments E single fuel2 fuel = some t) :
    (∀ i < t.n, t.origSeg i ∈ E.entrances.map Prod.snd) ∧
    (∀ e : Half, e.idx < t.n → ∃ p, t.pointIdx e = some p ∧ p < t.points.length) ∧
    (t.points.Pairwise fun a b => a.2 ≤ b.2) ∧
    ∀ (e : Half) (p : Nat), t.pointIdx e = some p →
      t.pointIdx (t.nb e).cw = some p ∧ t.pointIdx (t.nb e).ccw = some p ∧ (t.nb (t.nb e).cw).ccw = e ∧ (t.nb (t.nb e).ccw).cw = e ∧
      ∀ e', t.pointIdx e' = some p → ∃ k, (fun a => (t.nb a).cw)^[k] e = e' := by
  obtain ⟨H, hr, hok, _, _⟩ := driver_run hV h
  refine ⟨?_, (C24_one_open single E.orient hV.neg H [] t hr).2.2 rfl, (C24_order single E.orient hV.neg H [] t hr).1,
    C23_rings single E.orient hV.neg H [] t hr⟩
  intro i hi
  rcases C24_pieces single E.orient hV.neg H t hr i hi with ⟨y, e, x0, x1, k1, k2, _⟩ | ⟨l, y, e, y', e', l', k1, _⟩
  · rw [k2]; exact (hok _ k1).mem
  · have hm : (y, e) ∈ H.filter fun p => decide (p.2.segIdx = t.origSeg i) := by rw [k1]; simp
    rw [List.mem_filter, decide_eq_true_eq] at hm
    rw [← hm.2]; exact (hok _ hm.1).mem

/-- C61: and its winding numbers are consistent: equal on both sides of every corner, different by the contribution of the input
segment across every output segment, and zero in the unbounded region to the west. -/
theorem C61_winding (hV : E.Valid single fuel2) (h : fromSegments E single fuel2 fuel = some t) :
    (∀ (e : Half) (p : Nat), t.pointIdx e = some p → t.windingCw e = t.windingCcw (t.nb e).cw) ∧
    (∀ i < t.n, (t.winding i).ccw = (t.winding i).cw + single (t.origSeg i) (t.positive i)) ∧
    ∀ i < t.n, (∀ j, t.scanWest i = some j → j < i) ∧
      ((∃ a b y, Runs t i (a, y) (b, y)) ∨
        match t.scanWest i with
        | none => (t.winding i).cw = 0
        | some j => (t.winding i).cw = (t.winding j).ccw) := by
  obtain ⟨H, hr, _⟩ := driver_run hV h
  exact ⟨fun e p he => C25_local single E.orient hV.neg H [] t hr e p he, fun i hi => C25_sides single E.orient hV.neg H [] t hr i hi,
    fun i hi => C50_scan_west single E.orient hV.neg H [] t hr i hi⟩

variable [DecidableEq W]

/-- C61: the scan-line order can be computed from it, and at every height it is a left-to-right order of the output segments that
cross the height, with matching winding numbers, zero at both ends. -/
theorem C61_scan (hV : E.Valid single fuel2) (h : fromSegments E single fuel2 fuel = some t) :
    ∃ m, buildScanLineOrders t = some m ∧
      ∀ z : K, ∃ L : List Nat, L.Nodup ∧ (∀ o, o ∈ L ↔ AliveAt t o z) ∧
        (∀ l1 o l2, L = l1 ++ o :: l2 → neighborAfter (m.west o) z = l1.getLast? ∧ neighborAfter (m.east o) z = l2.head?) ∧
        (∀ l1 o l2, L = l1 ++ o :: l2 →
          (t.winding o).cw = (match l1.getLast? with | none => 0 | some w => (t.winding w).ccw) ∧
          (l2 = [] → (t.winding o).ccw = 0)) := by
  obtain ⟨H, yl, done, h1, _⟩ := fromSegments_spec hV.sched hV.exact hV.pp hV.contours hV.ord h
  exact C57_order hV.neg h1 rfl

/-- C61: merging coincident segments afterwards never fails and keeps the rings. -/
theorem C61_merge (hV : E.Valid single fuel2) (h : fromSegments E single fuel2 fuel = some t) (close : Nat → Nat → K → K → Bool) :
    ∃ t', mergeCoincident close t = some t' ∧
      t'.n = t.n ∧ t'.points = t.points ∧ t'.pointIdx = t.pointIdx ∧ t'.origSeg = t.origSeg ∧ t'.scanWest = t.scanWest ∧
      ∀ e, Live t' e → (Live t' (t'.nb e).cw ∧ (t'.nb (t'.nb e).cw).ccw = e ∧ t'.pointIdx (t'.nb e).cw = t'.pointIdx e) ∧
        (Live t' (t'.nb e).ccw ∧ (t'.nb (t'.nb e).ccw).cw = e ∧ t'.pointIdx (t'.nb e).ccw = t'.pointIdx e) ∧
        ∀ e', Live t' e' → t'.pointIdx e' = t'.pointIdx e → ∃ k, (fun a => (t'.nb a).cw)^[k] e = e' := by
  obtain ⟨H, hr, _⟩ := driver_run hV h
  exact C26_safe hV.neg hr

end Verif.Sweep
