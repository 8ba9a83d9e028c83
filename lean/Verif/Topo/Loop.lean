import Verif.Topo.Shape

/-! The loop of `process_sweep_line_range`: invariant and preservation. -/

namespace Verif.Topo
open Verif.Range
set_option linter.unusedSectionVars false

variable {K : Type} [LinearOrder K] {W : Type} [AddCommGroup W]

/-- Output segment `i` runs from `a` to `b`. -/
def Runs (t : Topo K W) (i : Nat) (a b : K × K) : Prop :=
  ∃ p q, t.pointIdx ⟨i, true⟩ = some p ∧ t.pointIdx ⟨i, false⟩ = some q ∧ t.points[p]? = some a ∧ t.points[q]? = some b

/-- `i` is a finished horizontal piece of event `e` at height `y`, running right from `a` to `b`. -/
def HorizOf (orient : Nat → Bool) (t : Topo K W) (y : K) (e : OutputEvent K) (i : Nat) (a b : K) : Prop :=
  e.smallerX ≤ a ∧ a < b ∧ b ≤ e.largerX ∧ t.origSeg i = e.segIdx ∧
  t.positive i = (decide (e.x0 < e.x1) == orient e.segIdx) ∧ Runs t i (a, y) (b, y)

/-- The segment of event `e` is being traced horizontally right after `cur`. -/
def act (cur : WithBot K) (e : OutputEvent K) : Bool :=
  decide ((e.smallerX : WithBot K) ≤ cur ∧ cur < (e.largerX : WithBot K))

/-- Contribution of an event: crossing its segment from left to right. -/
def contribOf (single : Nat → Bool → W) (orient : Nat → Bool) (e : OutputEvent K) : W :=
  single e.segIdx (orient e.segIdx)

/-- The invariant of the loop after the positions up to `cur`. `t0` is the topology before the range. -/
structure LInv (single : Nat → Bool → W) (orient : Nat → Bool) (y : K) (E Eo En : List (OutputEvent K))
    (t0 : Topo K W) (w0 wEnd : W) (sw0 : Option Nat) (cur : WithBot K) (s : LoopState K W) (hOf nOf : Nat → Nat) : Prop where
  r : RInv E cur s.r
  good : Good single s.t
  n_le : t0.n ≤ s.t.n
  openE : ∀ e ∈ E, s.t.openSegs e.segIdx =
    (if act cur e then [hOf e.segIdx] else []) ++
    (if e.connectedAbove = true ∧ cur < (e.x0 : WithBot K) then [(t0.openSegs e.segIdx).headD 0] else []) ++
    (if e.connectedBelow = true ∧ (e.x1 : WithBot K) ≤ cur then [nOf e.segIdx] else [])
  openOther : ∀ a, (∀ e ∈ E, e.segIdx ≠ a) → s.t.openSegs a = t0.openSegs a
  winding_old : ∀ i < t0.n, s.t.winding i = t0.winding i
  west_old : ∀ i < t0.n, s.t.scanWest i = t0.scanWest i
  positive_old : ∀ i < t0.n, s.t.positive i = t0.positive i
  orig_old : ∀ i < t0.n, s.t.origSeg i = t0.origSeg i
  pidx_old : ∀ h p, t0.pointIdx h = some p → s.t.pointIdx h = some p
  points_old : ∃ ps, s.t.points = t0.points ++ ps ∧ ∀ q ∈ ps, q.2 = y
  wH : WLine s.t.winding s.winding ((s.r.active.map HFrag.seg).map hOf)
    (w0 + csum (contribOf single orient) E fun e => e.connectedAbove && decide ((e.x0 : WithBot K) ≤ cur))
  wO : WLine t0.winding (w0 + csum (contribOf single orient) E fun e => e.connectedAbove && decide ((e.x0 : WithBot K) ≤ cur))
    ((Eo.filter fun e => decide (cur < (e.x0 : WithBot K))).map fun e => (t0.openSegs e.segIdx).headD 0) wEnd
  wN : WLine s.t.winding w0 ((En.filter fun e => decide ((e.x1 : WithBot K) ≤ cur)).map fun e => nOf e.segIdx) s.winding
  wSum : s.winding = w0 + csum (contribOf single orient) E fun e => e.connectedBelow && decide ((e.x1 : WithBot K) ≤ cur)
  cum : (csum (contribOf single orient) E fun e => !e.connectedAbove && decide ((e.x0 : WithBot K) ≤ cur)) =
    csum (contribOf single orient) E fun e => !e.connectedBelow && decide ((e.x1 : WithBot K) ≤ cur)
  sw_lt : ∀ j, s.scanWest = some j → j < s.t.n
  sw_w : s.winding = eastOf s.t s.scanWest
  lastDown : s.lastDown = none → ∀ e ∈ En, cur < (e.x1 : WithBot K)
  new_n : ∀ e ∈ E, e.connectedBelow = true → (e.x1 : WithBot K) ≤ cur →
    t0.n ≤ nOf e.segIdx ∧ nOf e.segIdx < s.t.n ∧ s.t.positive (nOf e.segIdx) = orient e.segIdx ∧
    WestOk s.t (nOf e.segIdx) ∧
    ∃ p, s.t.pointIdx ⟨nOf e.segIdx, true⟩ = some p ∧ s.t.points[p]? = some (e.x1, y)
  closed_o : ∀ e ∈ E, e.connectedAbove = true → (e.x0 : WithBot K) ≤ cur →
    ∃ p, s.t.pointIdx ⟨(t0.openSegs e.segIdx).headD 0, false⟩ = some p ∧ s.t.points[p]? = some (e.x0, y)
  open_h : ∀ e ∈ E, act cur e = true → t0.n ≤ hOf e.segIdx ∧ hOf e.segIdx < s.t.n ∧
    s.t.origSeg (hOf e.segIdx) = e.segIdx ∧
    s.t.positive (hOf e.segIdx) = (decide (e.x0 < e.x1) == orient e.segIdx) ∧
    ∃ p c, s.t.pointIdx ⟨hOf e.segIdx, true⟩ = some p ∧ s.t.points[p]? = some (c, y) ∧ (c : WithBot K) = cur
  kinds : ∀ i, t0.n ≤ i → i < s.t.n →
    (∃ e ∈ E, e.connectedBelow = true ∧ (e.x1 : WithBot K) ≤ cur ∧ i = nOf e.segIdx) ∨ (∃ e ∈ E, ∃ a b, HorizOf orient s.t y e i a b) ∨
    (∃ e ∈ E, act cur e = true ∧ i = hOf e.segIdx)
  cover : ∀ e ∈ E, ∀ z, e.smallerX ≤ z → z < e.largerX → (z : WithBot K) < cur →
    ∃ i a b, t0.n ≤ i ∧ i < s.t.n ∧ a ≤ z ∧ z < b ∧ HorizOf orient s.t y e i a b
  /-- the arrangement around every point -/
  shape : ∃ B, Shape s.t B ∧ (s.r.active.map HFrag.seg).map hOf = lastG s.t B ∧
    ∀ i, s.scanWest = some i → ∃ p < s.t.points.length, i ∈ (B p).downs
  /-- the new segments going down record each other as neighbours -/
  westN : ∀ l1 a l2, ((En.filter fun e => decide ((e.x1 : WithBot K) ≤ cur)).map fun e => nOf e.segIdx) = l1 ++ a :: l2 →
    s.t.scanWest a = l1.getLast?.or sw0
  swN : s.scanWest = ((En.filter fun e => decide ((e.x1 : WithBot K) ≤ cur)).map fun e => nOf e.segIdx).getLast?.or sw0
  lastN : s.lastDown = ((En.filter fun e => decide ((e.x1 : WithBot K) ≤ cur)).map fun e => nOf e.segIdx).getLast?
  /-- neighbours that end at the same point are neighbours there -/
  adjO : ∀ l1 e1 e2 l2, Eo = l1 ++ e1 :: e2 :: l2 → e1.x0 = e2.x0 → (e1.x0 : WithBot K) ≤ cur →
    (s.t.nb ⟨(t0.openSegs e1.segIdx).headD 0, false⟩).cw = ⟨(t0.openSegs e2.segIdx).headD 0, false⟩
  eastO : ∀ i < t0.n, s.t.scanEast i = t0.scanEast i
  eastN : ∀ i, t0.n ≤ i → i < s.t.n → s.t.scanEast i = none
  afterO : s.t.scanAfter = t0.scanAfter
  nb_old : ∀ h p, t0.pointIdx h = some p → s.t.nb h = t0.nb h
  pidx_new : ∀ h p, s.t.pointIdx h = some p → t0.pointIdx h = some p ∨ t0.points.length ≤ p

theorem mem_active_iff {E : List (OutputEvent K)} (hnd : (E.map OutputEvent.segIdx).Nodup) {cur : WithBot K}
    {r : SLRange K} (h : RInv E cur r) (e : OutputEvent K) (he : e ∈ E) :
    e.segIdx ∈ r.active.map HFrag.seg ↔ act cur e = true := by
  have hp := (h.active_perm.map HFrag.seg).mem_iff (a := e.segIdx)
  rw [hp, List.map_map]
  simp only [List.mem_map, List.mem_filter, Function.comp_apply, act]
  constructor
  · rintro ⟨e', ⟨h1, h2⟩, h3⟩
    have : e' = e := inj_of_nodup _ _ hnd h1 he h3
    rw [← this]; exact h2
  · intro h2; exact ⟨e, ⟨he, h2⟩, rfl⟩

theorem active_seg_mem {E : List (OutputEvent K)} {cur : WithBot K} {r : SLRange K} (h : RInv E cur r) (a : Nat)
    (ha : a ∈ r.active.map HFrag.seg) : ∃ e ∈ E, e.segIdx = a ∧ act cur e = true := by
  have hp := (h.active_perm.map HFrag.seg).mem_iff (a := a)
  rw [hp, List.map_map] at ha
  simp only [List.mem_map, List.mem_filter, Function.comp_apply] at ha
  obtain ⟨e', ⟨h1, h2⟩, h3⟩ := ha
  exact ⟨e', h1, h3, h2⟩

theorem active_nodup {E : List (OutputEvent K)} (hnd : (E.map OutputEvent.segIdx).Nodup) {cur : WithBot K}
    {r : SLRange K} (h : RInv E cur r) : (r.active.map HFrag.seg).Nodup := by
  have hp := h.active_perm.map HFrag.seg
  rw [hp.nodup_iff, List.map_map]
  have hs : ((E.filter fun e => decide ((e.smallerX : WithBot K) ≤ cur ∧ cur < (e.largerX : WithBot K))).map
      (HFrag.seg ∘ frag)).Sublist (E.map OutputEvent.segIdx) := by
    exact (List.filter_sublist).map _
  exact hs.nodup hnd

/-- The winding change across a horizontal piece, seen from below. -/
def hcontrib (single : Nat → Bool → W) (orient : Nat → Bool) (e : OutputEvent K) : W :=
  single e.segIdx (decide (e.x0 < e.x1) == orient e.segIdx)

/-- Above the sweep line equals below plus the horizontals in between. -/
theorem above_eq_below (single : Nat → Bool → W) (orient : Nat → Bool)
    (hsingle : ∀ s b, single s (!b) = - single s b) (E : List (OutputEvent K)) (cur : WithBot K)
    (hcum : (csum (contribOf single orient) E fun e => !e.connectedAbove && decide ((e.x0 : WithBot K) ≤ cur)) =
      csum (contribOf single orient) E fun e => !e.connectedBelow && decide ((e.x1 : WithBot K) ≤ cur)) :
    (csum (contribOf single orient) E fun e => e.connectedAbove && decide ((e.x0 : WithBot K) ≤ cur)) =
    (csum (contribOf single orient) E fun e => e.connectedBelow && decide ((e.x1 : WithBot K) ≤ cur)) +
    (E.map fun e => if act cur e then hcontrib single orient e else 0).sum := by
  have h1 := csum_add (contribOf single orient) E (fun e => decide ((e.x0 : WithBot K) ≤ cur))
    (fun e => e.connectedAbove && decide ((e.x0 : WithBot K) ≤ cur))
    (fun e => !e.connectedAbove && decide ((e.x0 : WithBot K) ≤ cur)) (by
      intro e _; cases e.connectedAbove <;> simp)
  have h2 := csum_add (contribOf single orient) E (fun e => decide ((e.x1 : WithBot K) ≤ cur))
    (fun e => e.connectedBelow && decide ((e.x1 : WithBot K) ≤ cur))
    (fun e => !e.connectedBelow && decide ((e.x1 : WithBot K) ≤ cur)) (by
      intro e _; cases e.connectedBelow <;> simp)
  have h3 : csum (contribOf single orient) E (fun e => decide ((e.x0 : WithBot K) ≤ cur)) =
      csum (contribOf single orient) E (fun e => decide ((e.x1 : WithBot K) ≤ cur)) +
      (E.map fun e => if act cur e then hcontrib single orient e else 0).sum := by
    unfold csum
    apply sum_eq_add
    intro e _
    unfold act OutputEvent.smallerX OutputEvent.largerX hcontrib contribOf
    by_cases q0 : (e.x0 : WithBot K) ≤ cur <;> by_cases q1 : (e.x1 : WithBot K) ≤ cur
    · have : ¬ cur < ((max e.x0 e.x1 : K) : WithBot K) := by
        rw [not_lt, WithBot.coe_max]; exact max_le q0 q1
      simp [q0, q1, this]
    · have hlt : e.x0 < e.x1 := WithBot.coe_lt_coe.1 (lt_of_le_of_lt q0 (not_le.1 q1))
      have a1 : ((min e.x0 e.x1 : K) : WithBot K) ≤ cur := by rw [min_eq_left hlt.le]; exact q0
      have a2 : cur < ((max e.x0 e.x1 : K) : WithBot K) := by rw [max_eq_right hlt.le]; exact not_le.1 q1
      simp [q0, q1, a1, a2, hlt]
    · have hlt : e.x1 < e.x0 := WithBot.coe_lt_coe.1 (lt_of_le_of_lt q1 (not_le.1 q0))
      have a1 : ((min e.x0 e.x1 : K) : WithBot K) ≤ cur := by rw [min_eq_right hlt.le]; exact q1
      have a2 : cur < ((max e.x0 e.x1 : K) : WithBot K) := by rw [max_eq_left hlt.le]; exact not_le.1 q0
      have hn : ¬ e.x0 < e.x1 := not_lt.2 hlt.le
      have hb : (false == orient e.segIdx) = !orient e.segIdx := by cases orient e.segIdx <;> rfl
      simp only [q0, q1, a1, a2, hn, decide_true, decide_false, true_and, if_true, Bool.false_eq_true, if_false,
        and_self, hb, hsingle]
      abel
    · have : ¬ ((min e.x0 e.x1 : K) : WithBot K) ≤ cur := by
        rw [not_le, WithBot.coe_min]; exact lt_min (not_le.1 q0) (not_le.1 q1)
      simp [q0, q1, this]
  rw [h1, h2, hcum] at h3
  generalize csum (contribOf single orient) E (fun e => e.connectedAbove && decide ((e.x0 : WithBot K) ≤ cur)) = a at *
  generalize (csum (contribOf single orient) E fun e => e.connectedBelow && decide ((e.x1 : WithBot K) ≤ cur)) = b at *
  generalize (csum (contribOf single orient) E fun e => !e.connectedBelow && decide ((e.x1 : WithBot K) ≤ cur)) = c at *
  generalize (E.map fun e => if act cur e then hcontrib single orient e else 0).sum = d at *
  have : a + c = (b + d) + c := by rw [h3]; abel
  exact add_right_cancel this

end Verif.Topo
