import Mathlib.Algebra.Order.Group.Int
import Verif.Topo.History

/-!
# Properties of the construction of `Topology` (C23, C24, C25, C50)

The theorems range over all executions `Run hist line t` of the loop that builds a topology: any number of
sweep lines, ranges and events. `RangeHyp` (RangeStep.lean) and `RangeSpec` (Events.lean) state what the
sweep supplies: events sorted by position, one per segment and height, in sweep-line order from above and
from below, and closed contours (what starts at a position balances what ends there).
-/

namespace Verif.Topo
open Verif.Range
set_option linter.unusedSectionVars false

variable {K : Type} [LinearOrder K] {W : Type} [AddCommGroup W]

/-! ## C23 -/

/-- C23: adding half-segments clockwise to the open arc `L` (from `first` to `last`) of a ring. -/
theorem C23_add_clockwise (p : Nat) (segs : List Half) (s : PointState K W) (L : List Half)
    (h1 : s.first = L.head?) (h2 : s.last = L.getLast?) (h3 : (L ++ segs).Nodup) (h4 : Ring s.t.nb L) :
    Ring (addCw p segs s).t.nb (L ++ segs) ∧
    (addCw p segs s).first = (L ++ segs).head? ∧ (addCw p segs s).last = (L ++ segs).getLast? ∧
    (∀ h, h ∉ L ++ segs → (addCw p segs s).t.nb h = s.t.nb h) ∧
    (∀ h, (addCw p segs s).t.pointIdx h = if h ∈ segs then some p else s.t.pointIdx h) := by
  obtain ⟨a1, a2, a3, a4⟩ := addCw_spec p segs s L h1 h2 h3 h4
  refine ⟨a1, a2, a3, a4.other, ?_⟩
  intro h
  rw [a4.eq]

/-- C23: adding half-segments counter-clockwise. -/
theorem C23_add_counter_clockwise (p : Nat) (segs : List Half) (s : PointState K W) (L : List Half)
    (h1 : s.first = L.head?) (h2 : s.last = L.getLast?) (h3 : (segs.reverse ++ L).Nodup) (h4 : Ring s.t.nb L) :
    Ring (addCcw p segs s).t.nb (segs.reverse ++ L) ∧
    (addCcw p segs s).first = (segs.reverse ++ L).head? ∧ (addCcw p segs s).last = (segs.reverse ++ L).getLast? ∧
    (∀ h, h ∉ segs.reverse ++ L → (addCcw p segs s).t.nb h = s.t.nb h) ∧
    (∀ h, (addCcw p segs s).t.pointIdx h = if h ∈ segs then some p else s.t.pointIdx h) := by
  obtain ⟨a1, a2, a3, a4⟩ := addCcw_spec p segs s L h1 h2 h3 h4
  refine ⟨a1, a2, a3, a4.other, ?_⟩
  intro h
  rw [a4.eq]

/-- C23: deleting a half-segment keeps the rest of the ring in order and touches nothing else. -/
theorem C23_delete (t : Topo K W) (h : Half) (L : List Half) (hr : Ring t.nb L) (hm : h ∈ L) :
    Ring (t.deleteHalf h).nb (L.erase h) ∧ ∀ a, a ∉ L → (t.deleteHalf h).nb a = t.nb a :=
  ⟨(deleteHalf_spec t h L hr hm).1, (deleteHalf_spec t h L hr hm).2.1⟩

/-- C23: at every moment of the construction, at every point, the half-segments there form exactly one
circular doubly linked list. -/
theorem C23_rings (single : Nat → Bool → W) (orient : Nat → Bool) (hsingle : ∀ s b, single s (!b) = - single s b)
    (hist : List (K × OutputEvent K)) (line : List Nat) (t : Topo K W) (hr : Run single orient hist line t)
    (h : Half) (p : Nat) (hp : t.pointIdx h = some p) :
    t.pointIdx (t.nb h).cw = some p ∧ t.pointIdx (t.nb h).ccw = some p ∧
    (t.nb (t.nb h).cw).ccw = h ∧ (t.nb (t.nb h).ccw).cw = h ∧
    ∀ h', t.pointIdx h' = some p → ∃ k, (fun a => (t.nb a).cw)^[k] h = h' := by
  have inv := hr.inv hsingle
  obtain ⟨L, r1, r2, _⟩ := inv.good.rings p (inv.good.ptLt h p hp).1
  have hm := (r2 h).2 hp
  have q1 := r1.cw hm
  have q2 := r1.ccw hm
  exact ⟨(r2 _).1 q1.1, (r2 _).1 q2.1, q1.2, q2.2, fun h' hp' => r1.orbit hm ((r2 h').2 hp')⟩

/-! ## C24 -/

/-- C24: processing a range never panics (in particular no queue of open output segments is popped while empty). -/
theorem C24_no_panic (single : Nat → Bool → W) (orient : Nat → Bool) (hsingle : ∀ s b, single s (!b) = - single s b)
    (hist : List (K × OutputEvent K)) (A B : List Nat) (y : K) (E Eo En : List (OutputEvent K)) (east : Option Nat)
    (ch : Bool) (t : Topo K W) (hr : Run single orient hist (A ++ Eo.map OutputEvent.segIdx ++ B) t)
    (H : RangeHyp single orient hist A B y E Eo En east) :
    ∃ t', processRange single orient y E A.getLast? east ch t = some t' ∧
      Run single orient (hist ++ E.map fun e => (y, e)) (A ++ En.map OutputEvent.segIdx ++ B) t' := by
  obtain ⟨t', h1, _⟩ := processRange_spec single orient hsingle hist A B y E Eo En east H ch t (hr.inv hsingle)
  exact ⟨t', h1, .range hist A B y E Eo En east ch t t' hr H h1⟩

/-- C24: between ranges, exactly the segments on the sweep line have an unfinished output segment, exactly
one each; in particular, at the end nothing is left dangling. -/
theorem C24_one_open (single : Nat → Bool → W) (orient : Nat → Bool) (hsingle : ∀ s b, single s (!b) = - single s b)
    (hist : List (K × OutputEvent K)) (line : List Nat) (t : Topo K W) (hr : Run single orient hist line t) :
    line.Nodup ∧ (∀ s, if s ∈ line then ∃ o, t.openSegs s = [o] else t.openSegs s = []) ∧
    (line = [] → ∀ h : Half, h.idx < t.n → ∃ p, t.pointIdx h = some p ∧ p < t.points.length) := by
  have inv := hr.inv hsingle
  refine ⟨inv.nodup, ?_, ?_⟩
  · intro s
    by_cases hs : s ∈ line
    · rw [if_pos hs]
      obtain ⟨o, _, _, _, h1, _⟩ := inv.openIn s hs
      exact ⟨o, h1⟩
    · rw [if_neg hs]; exact (inv.openOut s hs).1
  · intro hl h hn
    subst hl
    have hsome : t.pointIdx h ≠ none := by
      rcases h with ⟨i, f⟩
      cases f with
      | true =>
        have := inv.good.firstSome i hn
        rw [Option.isSome_iff_ne_none] at this; exact this
      | false =>
        intro hc
        have := (inv.good.openIff i (t.origSeg i)).2 ⟨hn, rfl, hc⟩
        rw [(inv.openOut _ (by simp)).1] at this
        simp at this
    obtain ⟨p, hp⟩ := Option.ne_none_iff_exists'.1 hsome
    exact ⟨p, hp, (inv.good.ptLt h p hp).1⟩

/-- C24: at the end of the sweep every output segment is either a horizontal piece of an event, inside the
extent of the event and running right, or connects two consecutive events of its input segment: it starts where the first
one leaves downwards and ends, strictly lower, where the second one arrives from above. -/
theorem C24_pieces (single : Nat → Bool → W) (orient : Nat → Bool) (hsingle : ∀ s b, single s (!b) = - single s b)
    (hist : List (K × OutputEvent K)) (t : Topo K W) (hr : Run single orient hist [] t) (i : Nat) (hi : i < t.n) :
    (∃ y e a b, (y, e) ∈ hist ∧ t.origSeg i = e.segIdx ∧ e.smallerX ≤ a ∧ a < b ∧ b ≤ e.largerX ∧
      Runs t i (a, y) (b, y)) ∨
    ∃ l y e y' e' l', (hist.filter fun p => decide (p.2.segIdx = t.origSeg i)) = l ++ (y, e) :: (y', e') :: l' ∧
      e.connectedBelow = true ∧ e'.connectedAbove = true ∧ y < y' ∧ Runs t i (e.x1, y) (e'.x0, y') := by
  have inv := hr.inv hsingle
  have hc : t.pointIdx ⟨i, false⟩ ≠ none := by
    obtain ⟨p, hp, _⟩ := (C24_one_open single orient hsingle hist [] t hr).2.2 rfl ⟨i, false⟩ hi
    rw [hp]; simp
  rcases inv.closed i hi hc with ⟨y, e, a, b, h1, h2⟩ | ⟨l, y, e, y', e', l', h1, h2, h3, h4⟩
  · left
    exact ⟨y, e, a, b, h1, h2.2.2.2.1, h2.1, h2.2.1, h2.2.2.1, h2.2.2.2.2.2⟩
  · right
    refine ⟨l, y, e, y', e', l', h1, h2.1, h3, ?_, h4⟩
    obtain ⟨p, q, k1, k2, k3, k4⟩ := h4
    obtain ⟨b, hb1, hb2⟩ := h2.2.2.2.2.2 q k2
    rw [k4] at hb1
    have : b = (e'.x0, y') := by simpa using hb1.symm
    rw [this] at hb2; exact hb2

/-- C24: conversely each pair of consecutive events of an input segment is joined by exactly one such output segment,
oriented like the input segment, -/
theorem C24_traced (single : Nat → Bool → W) (orient : Nat → Bool) (hsingle : ∀ s b, single s (!b) = - single s b)
    (hist : List (K × OutputEvent K)) (line : List Nat) (t : Topo K W) (hr : Run single orient hist line t)
    (s : Nat) (l : List (K × OutputEvent K)) (y : K) (e : OutputEvent K) (y' : K) (e' : OutputEvent K)
    (l' : List (K × OutputEvent K))
    (hev : (hist.filter fun p => decide (p.2.segIdx = s)) = l ++ (y, e) :: (y', e') :: l')
    (hb : e.connectedBelow = true) :
    ∃ i < t.n, (t.origSeg i = s ∧ t.positive i = orient s ∧ Runs t i (e.x1, y) (e'.x0, y') ∧ y < y') ∧
      ∀ j < t.n, t.origSeg j = s → Runs t j (e.x1, y) (e'.x0, y') → j = i := by
  have inv := hr.inv hsingle
  obtain ⟨i, hi, hv, hruns⟩ := inv.traced s l y e y' e' l' hev hb
  have hs : e.segIdx = s := by
    have : (y, e) ∈ hist.filter fun p => decide (p.2.segIdx = s) := by rw [hev]; simp
    rw [List.mem_filter, decide_eq_true_eq] at this
    exact this.2
  have hlt : y < y' := by
    obtain ⟨p, q, k1, k2, k3, k4⟩ := hruns
    obtain ⟨b, hb1, hb2⟩ := hv.2.2.2.2.2 q k2
    rw [k4] at hb1
    have : b = (e'.x0, y') := by simpa using hb1.symm
    rw [this] at hb2; exact hb2
  refine ⟨i, hi, ⟨by rw [hv.2.1, hs], by rw [hv.2.2.1, hs], hruns, hlt⟩, ?_⟩
  intro j hj h1 ⟨p, q, k1, k2, k3, k4⟩
  obtain ⟨h2, h3⟩ : t.positive j = orient s ∧ WestOk t j := by
    rcases inv.closed j hj (by rw [k2]; simp) with ⟨_, _, a, b, _, _, _, _, _, _, p', q', m1, m2, m3, m4⟩ |
      ⟨_, _, _, _, _, _, _, hv', _⟩
    · rw [k1] at m1; rw [k2] at m2
      have e1 : p = p' := by simpa using m1
      have e2 : q = q' := by simpa using m2
      subst e1; subst e2
      rw [k3] at m3; rw [k4] at m4
      simp at m3 m4
      rw [m3.2, m4.2] at hlt
      exact absurd hlt (lt_irrefl _)
    · exact ⟨by rw [hv'.2.2.1, ← hv'.2.1, h1], hv'.2.2.2.1⟩
  refine inv.uniq y e j i hj hi ⟨hb, by rw [h1, hs], by rw [h2, hs], h3, ⟨p, k1, k3⟩, ?_⟩ hv
  intro q' hq'
  rw [k2] at hq'
  have : q = q' := by simpa using hq'
  subst this
  exact ⟨_, k4, hlt⟩

/-- C24: and the horizontal pieces of an event cover its whole extent, running right, oriented along the input segment
iff the event goes to the right. -/
theorem C24_horizontal_cover (single : Nat → Bool → W) (orient : Nat → Bool)
    (hsingle : ∀ s b, single s (!b) = - single s b)
    (hist : List (K × OutputEvent K)) (line : List Nat) (t : Topo K W) (hr : Run single orient hist line t)
    (y : K) (e : OutputEvent K) (hmem : (y, e) ∈ hist) (z : K) (h1 : min e.x0 e.x1 ≤ z) (h2 : z < max e.x0 e.x1) :
    ∃ i a b, i < t.n ∧ t.origSeg i = e.segIdx ∧ min e.x0 e.x1 ≤ a ∧ a ≤ z ∧ z < b ∧ b ≤ max e.x0 e.x1 ∧
      Runs t i (a, y) (b, y) ∧ (t.positive i = true ↔ (e.x0 < e.x1 ↔ orient e.segIdx = true)) := by
  have inv := hr.inv hsingle
  obtain ⟨i, a, b, hi, k1, k2, k3⟩ := inv.cover y e hmem z h1 h2
  refine ⟨i, a, b, hi, k3.2.2.2.1, k3.1, k1, k2, k3.2.2.1, k3.2.2.2.2.2, ?_⟩
  rw [k3.2.2.2.2.1]
  by_cases q : e.x0 < e.x1 <;> cases orient e.segIdx <;> simp [q]

/-- C24: output points are produced in sweep order and output segments go forward in it. -/
theorem C24_order (single : Nat → Bool → W) (orient : Nat → Bool) (hsingle : ∀ s b, single s (!b) = - single s b)
    (hist : List (K × OutputEvent K)) (line : List Nat) (t : Topo K W) (hr : Run single orient hist line t) :
    (t.points.Pairwise fun a b => a.2 ≤ b.2) ∧
    ∀ i p q, t.pointIdx ⟨i, true⟩ = some p → t.pointIdx ⟨i, false⟩ = some q → p < q :=
  ⟨(hr.inv hsingle).mono, (hr.inv hsingle).good.order⟩

/-! ## C25 -/

/-- C25: around each point, the region clockwise of a half-segment is the region counter-clockwise of its
clockwise neighbour. -/
theorem C25_local (single : Nat → Bool → W) (orient : Nat → Bool) (hsingle : ∀ s b, single s (!b) = - single s b)
    (hist : List (K × OutputEvent K)) (line : List Nat) (t : Topo K W) (hr : Run single orient hist line t)
    (h : Half) (p : Nat) (hp : t.pointIdx h = some p) : t.windingCw h = t.windingCcw (t.nb h).cw := by
  have inv := hr.inv hsingle
  obtain ⟨L, r1, r2, w, r3⟩ := inv.good.rings p (inv.good.ptLt h p hp).1
  exact ring_fit r1 r3 ((r2 h).2 hp)

/-- C25: the two sides of an output segment differ by the contribution of its input segment. -/
theorem C25_sides (single : Nat → Bool → W) (orient : Nat → Bool) (hsingle : ∀ s b, single s (!b) = - single s b)
    (hist : List (K × OutputEvent K)) (line : List Nat) (t : Topo K W) (hr : Run single orient hist line t)
    (i : Nat) (hi : i < t.n) :
    (t.winding i).ccw = (t.winding i).cw + single (t.origSeg i) (t.positive i) :=
  (hr.inv hsingle).good.sgn i hi

/-- C25: the winding numbers are the true ones: to the left of an output segment crossing the sweep line, the winding
number is the total contribution of the segments further left; beyond the last segment it is zero. -/
theorem C25_sweep (single : Nat → Bool → W) (orient : Nat → Bool) (hsingle : ∀ s b, single s (!b) = - single s b)
    (hist : List (K × OutputEvent K)) (line : List Nat) (t : Topo K W) (hr : Run single orient hist line t) :
    (∀ A s B, line = A ++ s :: B → ∀ o, t.openSegs s = [o] →
      (t.winding o).cw = (A.map fun a => single a (orient a)).sum) ∧
    (line.map fun a => single a (orient a)).sum = 0 := by
  have inv := hr.inv hsingle
  have contrib : ∀ a ∈ line, ∃ o, t.openSegs a = [o] ∧ (t.winding o).ccw = (t.winding o).cw + single a (orient a) := by
    intro a ha
    obtain ⟨o, y, e, l, h1, h2, h3⟩ := inv.openIn a ha
    have ho := (inv.good.openIff o a).1 (by rw [h1]; simp)
    refine ⟨o, h1, ?_⟩
    have hs : e.segIdx = a := by rw [← h3.2.1]; exact ho.2.1
    rw [inv.good.sgn o ho.1, ho.2.1, h3.2.2.1, hs]
  have sum : ∀ (l : List Nat), (∀ a ∈ l, a ∈ line) → ∀ u v, WLine t.winding u (l.map fun s => (t.openSegs s).headD 0) v →
      v = u + (l.map fun a => single a (orient a)).sum := by
    intro l
    induction l with
    | nil => intro _ u v h; simp only [List.map_nil, WLine] at h; simp [h]
    | cons a l ih =>
      intro hl u v h
      obtain ⟨o, h1, h2⟩ := contrib a (hl a (by simp))
      rw [List.map_cons, h1] at h
      obtain ⟨q1, q2⟩ := h
      simp only [List.headD_cons] at q1 q2
      rw [ih (fun b hb => hl b (List.mem_cons_of_mem _ hb)) _ v q2, h2, q1, List.map_cons, List.sum_cons, add_assoc]
  constructor
  · intro A s B hl o ho
    have w := inv.walk
    rw [hl, List.map_append] at w
    obtain ⟨m, w1, w2⟩ := w.split
    rw [List.map_cons, ho] at w2
    have hm : m = (t.winding o).cw := w2.1.symm
    rw [← hm, sum A (by intro a ha; rw [hl]; simp [ha]) 0 m w1, zero_add]
  · have := sum line (fun a h => h) 0 0 inv.walk
    rw [zero_add] at this; exact this.symm

/-! ## C50 -/

/-- C50: the scan-west neighbour of an output segment was produced earlier, and the region between it and a non-horizontal
output segment has the winding number recorded on the east of the neighbour and on the west of the segment
(zero if there is no neighbour). -/
theorem C50_scan_west (single : Nat → Bool → W) (orient : Nat → Bool) (hsingle : ∀ s b, single s (!b) = - single s b)
    (hist : List (K × OutputEvent K)) (line : List Nat) (t : Topo K W) (hr : Run single orient hist line t)
    (i : Nat) (hi : i < t.n) :
    (∀ j, t.scanWest i = some j → j < i) ∧
    ((∃ a b y, Runs t i (a, y) (b, y)) ∨
      match t.scanWest i with
      | none => (t.winding i).cw = 0
      | some j => (t.winding i).cw = (t.winding j).ccw) := by
  have inv := hr.inv hsingle
  refine ⟨inv.good.west i hi, ?_⟩
  have fin : WestOk t i → (match t.scanWest i with
      | none => (t.winding i).cw = 0
      | some j => (t.winding i).cw = (t.winding j).ccw) := by
    intro hw
    unfold WestOk at hw
    cases hc : t.scanWest i with
    | none => rw [hc] at hw; exact hw
    | some j => rw [hc] at hw; exact hw
  by_cases hc : t.pointIdx ⟨i, false⟩ = none
  · right
    have hop := (inv.good.openIff i (t.origSeg i)).2 ⟨hi, rfl, hc⟩
    by_cases hl : t.origSeg i ∈ line
    · obtain ⟨o, _, _, _, ho, _, hv⟩ := inv.openIn _ hl
      have hio : i = o := by rw [ho] at hop; simpa using hop
      subst hio
      exact fin hv.2.2.2.1
    · rw [(inv.openOut _ hl).1] at hop; simp at hop
  · rcases inv.closed i hi hc with ⟨y, e, a, b, _, h2⟩ | ⟨l, y, e, y', e', l', h1, h2, _⟩
    · exact .inl ⟨a, b, y, h2.2.2.2.2.2⟩
    · exact .inr (fin h2.2.2.2.1)

/-! ## Non-vacuity -/

/-- Segment 2 is a horizontal edge from (0,0) to (4,0), traversed to the left; segment 0 goes down from (0,0), segment 1
goes up to (4,0) from (4,10); at height 10, segment 1 is moved horizontally to where segment 0 ends. -/
def exTop : List (OutputEvent Int) :=
  [⟨0, false, 0, true, 0, some 0, none⟩, ⟨0, false, 4, false, 2, none, none⟩, ⟨4, false, 4, true, 1, some 1, none⟩]
def exBot : List (OutputEvent Int) :=
  [⟨0, true, 0, false, 0, none, some 0⟩, ⟨4, true, 0, false, 1, none, some 1⟩]
def exOrient : Nat → Bool := fun s => s == 0
def exSingle : Nat → Bool → Int := fun _ b => if b then 1 else -1

theorem ex_single (s : Nat) (b : Bool) : exSingle s (!b) = - exSingle s b := by
  cases b <;> simp [exSingle]

theorem ex_filter_sum (E : List (OutputEvent Int)) (P : OutputEvent Int → Bool) (x : Int) (f g : OutputEvent Int → Int) :
    ((E.filter fun e => P e && decide (f e = x)).map g).sum =
      (E.map fun e => if P e then (if f e = x then g e else 0) else 0).sum := by
  rw [sum_filter]
  congr 1
  apply List.map_congr_left
  intro e _
  cases P e <;> simp

theorem ex_top : RangeHyp exSingle exOrient [] [] [] (0 : Int) exTop [] [exTop[0], exTop[2]] none := by
  refine ⟨⟨?_, by decide, by decide, by simp, by simp, by simp, by decide, by decide, by decide, ?_, ?_⟩, by simp, by simp,
    by simp, by simp⟩
  · decide
  · decide
  · intro x
    rw [ex_filter_sum, ex_filter_sum]
    by_cases h0 : (0 : Int) = x
    · subst h0; decide
    · by_cases h4 : (4 : Int) = x
      · subst h4; decide
      · simp [exTop, h0, h4]

theorem ex_bot : RangeHyp exSingle exOrient (exTop.map fun e => ((0 : Int), e)) [] [] (10 : Int) exBot exBot [] none := by
  refine ⟨⟨by decide, by decide, by decide, by decide, by decide, by decide, by decide, by simp, by simp, by simp, ?_⟩,
    by decide, by decide, by decide, by simp⟩
  intro x
  rw [ex_filter_sum, ex_filter_sum]
  by_cases h0 : (0 : Int) = x
  · subst h0; decide
  · by_cases h4 : (4 : Int) = x
    · subst h4; decide
    · simp [exBot, h0]

/-- A complete execution with two sweep lines, an input horizontal and a horizontal piece. -/
example : ∃ t, Run exSingle exOrient ((exTop.map fun e => ((0 : Int), e)) ++ exBot.map fun e => ((10 : Int), e)) [] t := by
  obtain ⟨t1, _, h1⟩ := C24_no_panic exSingle exOrient ex_single [] [] [] 0 exTop [] [exTop[0], exTop[2]] none false
    Topo.init .init ex_top
  obtain ⟨t2, _, h2⟩ := C24_no_panic exSingle exOrient ex_single _ [] [] 10 exBot exBot [] none false t1 h1 ex_bot
  exact ⟨t2, h2⟩

/-- C23: a ring of two half-segments extended in both directions. -/
example : ∃ (s : PointState Int Int) (L : List Half), s.first = L.head? ∧ s.last = L.getLast? ∧ Ring s.t.nb L ∧ L.length = 2 := by
  let s0 : PointState Int Int := ⟨Topo.init, none, none⟩
  have := C23_add_clockwise 0 [⟨0, true⟩, ⟨1, true⟩] s0 [] rfl rfl (by decide) ⟨by simp, by simp⟩
  exact ⟨addCw 0 [⟨0, true⟩, ⟨1, true⟩] s0, _, this.2.1, this.2.2.1, this.1, rfl⟩

end Verif.Topo
