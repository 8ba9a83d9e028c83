import Verif.Sweep.Main
import Verif.Sweep.Props
import Verif.Sweep.TotalPlanar
import Verif.Sweep.GenericMain

/-!
# Positions in the output

If on the lines of the sweep the error intervals are in order, every output segment stays in the error interval of its input segment.
-/

namespace Verif.Sweep
open Verif.Curve Verif.Range Verif.Topo
set_option linter.unusedSectionVars false

variable {K : Type} [LinearOrder K] [AddCommGroup K] [IsOrderedAddMonoid K] {W : Type} [AddCommGroup W]
variable {E : Env K} {single : Nat → Bool → W} {fuel2 fuel : Nat} {t : Topo K W}

/-- On every line of the sweep - as it was above, when all the segments that start there have been put in their places, and at the end - no segment
is clearly to the left of one further left: their error intervals overlap or are in order. -/
structure Env.Tidy (E : Env K) (fuel : Nat) : Prop where
  lower : ∀ a y, E.On y a → E.lower a y ≤ E.atY a y
  upper : ∀ a y, E.On y a → E.atY a y ≤ E.upper a y
  inf : ∀ a y, E.On y a → E.negInf ≤ E.atY a y ∧ E.atY a y ≤ E.posInf
  order : ∀ s s' w, (s = State.new E ∨ Reached E fuel s) → nextLine E fuel s = some (some s') → beforeInts E s = some w →
    (w.line.map Entry.oldSegId).Pairwise (fun a b => E.lower a s'.y ≤ E.upper b s'.y) ∧
    (s'.line.map Entry.seg).Pairwise (fun a b => E.lower a s'.y ≤ E.upper b s'.y)

theorem epsOrd_of_tidy (hT : E.Tidy fuel) {y : K} {l : List Nat} (hon : ∀ a ∈ l, E.On y a) (h : l.Pairwise fun a b => E.lower a y ≤ E.upper b y) : EpsOrd E y l := by
  refine ⟨?_, fun a ha => ⟨hT.lower a y (hon a ha), hT.upper a y (hon a ha)⟩, fun a ha => hT.inf a y (hon a ha)⟩
  intro i j a b hij ha hb
  rcases hij.eq_or_lt with rfl | hij
  · rw [ha, Option.some.injEq] at hb
    subst hb
    exact (hT.lower a y (hon a (List.mem_of_getElem? ha))).trans (hT.upper a y (hon a (List.mem_of_getElem? ha)))
  rw [List.pairwise_iff_getElem] at h
  obtain ⟨h1, rfl⟩ := List.getElem?_eq_some_iff.1 ha
  obtain ⟨h2, rfl⟩ := List.getElem?_eq_some_iff.1 hb
  exact h i j h1 h2 hij

theorem Emitted.from (hs : E.Sched) (hpp : E.PP) {y : K} {e : OutputEvent K} (h : Emitted E fuel y e) :
    ∃ s s' w L c buf buf' evs, (s = State.new E ∨ Reached E fuel s) ∧ nextLine E fuel s = some (some s') ∧ beforeInts E s = some w ∧ s'.y = y ∧
      Finished E (newSegs s.line) w.line L s' ∧ c ∈ s'.chg ∧ nextRange E s' buf c = some (buf', evs) ∧ e ∈ evs := by
  obtain ⟨s, s', h1, h2, h3, c, hc, buf, buf', evs, h4, h5⟩ := h
  have hb : ∃ yl, Between E yl s := by
    rcases h1 with rfl | h
    · exact ⟨⊥, Between.init E⟩
    · exact ⟨_, (h.spec hs hpp).1⟩
  obtain ⟨yl, hb⟩ := hb
  obtain ⟨hlt, ⟨w, v, p1, p2, p3, p4, p5, p6, hF⟩, hb', hny⟩ := nextLine_parts hs hpp hb h2
  exact ⟨s, s', w, v.line, c, buf, buf', evs, h1, h2, p1, h3, hF, hc, h4, h5⟩

theorem Emitted.evOk (hs : E.Sched) (hpp : E.PP) (hE : E.Exact) {y : K} {e : OutputEvent K} (h : Emitted E fuel y e) : EvOk E y e := by
  obtain ⟨s, s', w, L, c, buf, buf', evs, -, -, -, h4, hF, h6, h7, h8⟩ := h.from hs hpp
  obtain ⟨T, To, hT⟩ := nextRange_tags hF hE h6 h7
  rw [← h4]
  exact hT.evOk hF e h8

/-- Every position of an event lies in the error interval of the segment. -/
theorem Emitted.within (hs : E.Sched) (hpp : E.PP) (hE : E.Exact) (hT : E.Tidy fuel) {y : K} {e : OutputEvent K} (h : Emitted E fuel y e)
    (hlt : E.startY e.segIdx < E.endY e.segIdx) :
    (E.lower e.segIdx y ≤ e.x0 ∧ e.x0 ≤ E.upper e.segIdx y) ∧ (E.lower e.segIdx y ≤ e.x1 ∧ e.x1 ≤ E.upper e.segIdx y) := by
  obtain ⟨s, s', w, L, c, buf, buf', evs, h1, h2, h3, rfl, hF, h6, h7, h8⟩ := h.from hs hpp
  obtain ⟨o1, o2⟩ := hT.order s s' w h1 h2 h3
  have honM : ∀ x ∈ lineIds w.line, E.On s'.y x := by
    intro x hx
    obtain ⟨a1, a2, a3, a4⟩ := (hF.mem x).1 hx
    exact ⟨⟨a1, lt_of_le_of_ne (hs.down x a1) (by simpa [Env.isHorizontal] using a2)⟩, a3, a4⟩
  have hid : ∀ e : Entry, e.seg ∈ e.ids ∧ e.oldSegId ∈ e.ids := by
    intro e
    refine ⟨by simp [Entry.ids], ?_⟩
    unfold Entry.oldSegId Entry.ids
    cases e.oldSeg <;> simp
  have hM : ∀ e ∈ w.line, E.On s'.y e.seg ∧ E.On s'.y e.oldSegId :=
    fun e he => ⟨honM _ (mem_lineIds.2 ⟨e, he, (hid e).1⟩), honM _ (mem_lineIds.2 ⟨e, he, (hid e).2⟩)⟩
  have hN : ∀ e ∈ s'.line, E.On s'.y e.seg := fun e he => honM _ (hF.ids_perm.mem_iff.1 (mem_lineIds.2 ⟨e, he, (hid e).1⟩))
  refine hF.within hE h6 h7 ?_ ?_ e h8 hlt
  · refine epsOrd_of_tidy hT ?_ (List.Pairwise.sublist ((slice_sublist _ _).map _) o1)
    intro a ha
    obtain ⟨e, he, rfl⟩ := List.mem_map.1 ha
    exact (hM e ((slice_sublist _ _).subset he)).2
  · refine epsOrd_of_tidy hT ?_ (List.Pairwise.sublist ((slice_sublist _ _).map _) o2)
    intro a ha
    obtain ⟨e, he, rfl⟩ := List.mem_map.1 ha
    exact hN e ((slice_sublist _ _).subset he)

/-- Both ends of every output segment lie in the error interval of its input segment, at a height of that segment. -/
theorem piece_within (hV : E.Valid single fuel2) (hT : E.Tidy fuel2) (h : fromSegments E single fuel2 fuel = some t) {a i : Nat} {p q : K × K}
    (ha : a ∈ E.segs) (hp : PieceOf t a i p q) :
    (E.startY a ≤ p.2 ∧ p.2 ≤ E.endY a) ∧ (E.startY a ≤ q.2 ∧ q.2 ≤ E.endY a) ∧
    (E.startY a < E.endY a → (E.lower a p.2 ≤ p.1 ∧ p.1 ≤ E.upper a p.2) ∧ (E.lower a q.2 ≤ q.1 ∧ q.1 ≤ E.upper a q.2)) ∧
    (E.startY a = E.endY a → E.startX a ≤ p.1 ∧ p.1 ≤ q.1 ∧ q.1 ≤ E.endX a) := by
  obtain ⟨vs, -, -, h3, -, h5, h6⟩ := traced hV h a ha
  have hv : ∀ v ∈ vs, (E.startY a ≤ v.y ∧ v.y ≤ E.endY a) ∧
      (E.startY a < E.endY a → (E.lower a v.y ≤ v.x0 ∧ v.x0 ≤ E.upper a v.y) ∧ (E.lower a v.y ≤ v.x1 ∧ v.x1 ≤ E.upper a v.y)) ∧
      (E.startY a = E.endY a → v.x0 = E.startX a ∧ v.x1 = E.endX a) := by
    intro v hv
    obtain ⟨e, e1, rfl, e3, e4⟩ := h6 v hv
    have hok := e1.evOk hV.sched hV.pp hV.exact
    have hy : E.startY e.segIdx ≤ v.y ∧ v.y ≤ E.endY e.segIdx := by
      constructor
      · cases hc : e.connectedAbove with
        | false => exact (hok.starts hc).1.le
        | true => exact (hok.above hc).le
      · cases hc : e.connectedBelow with
        | false => exact (hok.stops hc).1.ge
        | true => exact (hok.below hc).le
    refine ⟨hy, fun hlt => ?_, fun heq => ?_⟩
    · rw [← e3, ← e4]
      exact e1.within hV.sched hV.pp hV.exact hT hlt
    · have hvy : v.y = E.startY e.segIdx := le_antisymm (hy.2.trans heq.ge) hy.1
      rw [← e3, ← e4]
      constructor
      · cases hc : e.connectedAbove with
        | false => exact (hok.starts hc).2
        | true => exact absurd (hok.above hc) (by rw [hvy]; exact lt_irrefl _)
      · cases hc : e.connectedBelow with
        | false => exact (hok.stops hc).2
        | true => exact absurd (hok.below hc) (by rw [hvy, heq]; exact lt_irrefl _)
  rcases h5 i p q hp with ⟨v, k1, k2, k3, k4, k5, k6⟩ | ⟨l, v, w, l', k1, rfl, rfl⟩
  · obtain ⟨g1, g2, g3⟩ := hv v k1
    rw [k2, k3]
    refine ⟨g1, g1, fun hlt => ?_, fun heq => ?_⟩
    · obtain ⟨⟨a1, a2⟩, a3, a4⟩ := g2 hlt
      have lo : E.lower a v.y ≤ p.1 := (le_min a1 a3).trans k4
      have hi : q.1 ≤ E.upper a v.y := k6.trans (max_le a2 a4)
      exact ⟨⟨lo, k5.le.trans hi⟩, lo.trans k5.le, hi⟩
    · obtain ⟨a1, a2⟩ := g3 heq
      have hfl : E.startX a ≤ E.endX a := hV.contours.flat a ha (by simpa [Env.isHorizontal] using heq)
      rw [a1, a2, min_eq_left hfl] at k4
      rw [a1, a2, max_eq_right hfl] at k6
      exact ⟨k4, k5.le, k6⟩
  · obtain ⟨g1, g2, g3⟩ := hv v (by rw [k1]; simp)
    obtain ⟨m1, m2, m3⟩ := hv w (by rw [k1]; simp)
    have hlt := (h3 l v w l' k1).1
    refine ⟨g1, m1, fun h => ⟨(g2 h).2, (m2 h).1⟩, fun heq => ?_⟩
    exact absurd (g1.1.trans_lt (hlt.trans_le m1.2)) (by rw [heq]; exact lt_irrefl _)

section
variable {y : K} {L0 : List Nat} {M L : List Entry} {s' : State K}

theorem Finished.onSeg (hs : E.Sched) (hF : Finished E L0 M L s') : (∀ e ∈ M, E.On s'.y e.seg ∧ E.On s'.y e.oldSegId) ∧ ∀ e ∈ s'.line, E.On s'.y e.seg := by
  have honM : ∀ x ∈ lineIds M, E.On s'.y x := by
    intro x hx
    obtain ⟨a1, a2, a3, a4⟩ := (hF.mem x).1 hx
    exact ⟨⟨a1, lt_of_le_of_ne (hs.down x a1) (by simpa [Env.isHorizontal] using a2)⟩, a3, a4⟩
  have hid : ∀ e : Entry, e.seg ∈ e.ids ∧ e.oldSegId ∈ e.ids := by
    intro e
    refine ⟨by simp [Entry.ids], ?_⟩
    unfold Entry.oldSegId Entry.ids
    cases e.oldSeg <;> simp
  exact ⟨fun e he => ⟨honM _ (mem_lineIds.2 ⟨e, he, (hid e).1⟩), honM _ (mem_lineIds.2 ⟨e, he, (hid e).2⟩)⟩,
    fun e he => honM _ (hF.ids_perm.mem_iff.1 (mem_lineIds.2 ⟨e, he, (hid e).1⟩))⟩

/-- Where a segment continues another one they have the same position. -/
theorem Finished.oldAt (hs : E.Sched) (hE : E.Exact) (hF : Finished E L0 M L s') {e : Entry} (he : e ∈ M) :
    e.oldSegId = e.seg ∨ (E.atY e.oldSegId s'.y = E.atY e.seg s'.y ∧ E.Corner s'.y) := by
  obtain ⟨hM, -⟩ := hF.onSeg hs
  have hex : ∀ {x}, E.On s'.y x → E.atY x (E.startY x) = E.startX x ∧ E.atY x (E.endY x) = E.endX x :=
    fun hx => hE _ hx.1.1 (by simp [Env.isHorizontal, hx.1.2.ne])
  cases hF.kinds e he with
  | stays _ _ h => left; unfold Entry.oldSegId; rw [h]; rfl
  | enters _ _ h _ => left; unfold Entry.oldSegId; rw [h]; rfl
  | exits _ _ h _ => left; unfold Entry.oldSegId; rw [h]; rfl
  | continues o _ _ h k1 _ _ k2 k3 =>
    have ho : e.oldSegId = o := by unfold Entry.oldSegId; rw [h]; rfl
    have g1 := (hex (hM e he).1).1
    have g2 := (hex (hM e he).2).2
    rw [ho] at g2 ⊢
    rw [k3] at g2
    rw [k1] at g1
    exact Or.inr ⟨by rw [g1, g2, k2], _, (hM e he).1.1.1, Or.inl k1⟩

end

/-- If of two segments in the wrong order the error intervals overlap, and at corners the order is right, the sweep is tidy. -/
theorem tidy_of_lines (hs : E.Sched) (hpp : E.PP) (hE : E.Exact) (hl : ∀ a y, E.On y a → E.lower a y ≤ E.atY a y)
    (hu : ∀ a y, E.On y a → E.atY a y ≤ E.upper a y) (hi : ∀ a y, E.On y a → E.negInf ≤ E.atY a y ∧ E.atY a y ≤ E.posInf)
    (R : K → Nat → Nat → Prop) (hR : ∀ y a b, E.On y a → E.On y b → R y a b → E.lower a y ≤ E.upper b y)
    (hC : ∀ y a b, E.On y a → E.On y b → E.Corner y → R y a b → E.atY a y ≤ E.atY b y)
    (h : ∀ s s' w, (s = State.new E ∨ Reached E fuel s) → nextLine E fuel s = some (some s') → beforeInts E s = some w →
      w.line.Pairwise (fun e f => R s'.y e.seg f.seg) ∧ s'.line.Pairwise (fun e f => R s'.y e.seg f.seg)) : E.Tidy fuel := by
  refine ⟨hl, hu, hi, ?_⟩
  intro s s' w h1 h2 h3
  obtain ⟨yl, hb⟩ : ∃ yl, Between E yl s := by
    rcases h1 with rfl | h
    · exact ⟨⊥, Between.init E⟩
    · exact ⟨_, (h.spec hs hpp).1⟩
  obtain ⟨hlt, ⟨w', v, p1, p2, p3, p4, p5, p6, hF⟩, hb', hny⟩ := nextLine_parts hs hpp hb h2
  rw [h3, Option.some.injEq] at p1
  subst p1
  obtain ⟨hM, hN⟩ := hF.onSeg hs
  obtain ⟨g1, g2⟩ := h s s' w h1 h2 h3
  refine ⟨?_, ?_⟩
  · rw [List.pairwise_map]
    refine g1.imp_of_mem ?_
    intro e f he hf hef
    have corner : E.Corner s'.y → E.atY e.oldSegId s'.y = E.atY e.seg s'.y → E.atY f.oldSegId s'.y = E.atY f.seg s'.y →
        E.lower e.oldSegId s'.y ≤ E.upper f.oldSegId s'.y := by
      intro c k1 k2
      have hle := hC _ _ _ (hM e he).1 (hM f hf).1 c hef
      rw [← k1, ← k2] at hle
      exact ((hl _ _ (hM e he).2).trans hle).trans (hu _ _ (hM f hf).2)
    rcases hF.oldAt hs hE he with k1 | ⟨k1, c1⟩ <;> rcases hF.oldAt hs hE hf with k2 | ⟨k2, c2⟩
    · rw [k1, k2]; exact hR _ _ _ (hM e he).1 (hM f hf).1 hef
    · exact corner c2 (by rw [k1]) k2
    · exact corner c1 k1 (by rw [k2])
    · exact corner c1 k1 k2
  · rw [List.pairwise_map]
    exact g2.imp_of_mem fun he hf hef => hR _ _ _ (hN _ he) (hN _ hf) hef

/-- Segments that do not cross. -/
theorem tidy_planar (hs : E.Sched) (hpp : E.PP) (hE : E.Exact) (hP : E.Planar) (hl : ∀ a y, E.On y a → E.lower a y ≤ E.atY a y)
    (hu : ∀ a y, E.On y a → E.atY a y ≤ E.upper a y) (hi : ∀ a y, E.On y a → E.negInf ≤ E.atY a y ∧ E.atY a y ≤ E.posInf) (fuel : Nat) : E.Tidy fuel := by
  have le : ∀ y a b, E.On y a → E.On y b → ¬ E.Lt b a → E.atY a y ≤ E.atY b y := by
    intro y a b ha hb hab
    by_contra hc
    exact hab ⟨y, hb.2, ha.2, not_le.1 hc⟩
  refine tidy_of_lines hs hpp hE hl hu hi (fun _ a b => ¬ E.Lt b a) (fun y a b ha hb hab => ((hl a y ha).trans (le y a b ha hb hab)).trans (hu b y hb))
    (fun y a b ha hb _ hab => le y a b ha hb hab) ?_
  intro s s' w h1 h2 h3
  obtain ⟨yl, hb, hg⟩ : ∃ yl, Between E yl s ∧ (newSegs s.line).Pairwise (fun a b => ¬ E.Lt b a) ∧ Touching E s.ints := by
    rcases h1 with rfl | h
    · refine ⟨⊥, Between.init E, ?_, ?_⟩
      · show (newSegs []).Pairwise _
        exact List.Pairwise.nil
      · intro ev hev
        simp [State.new] at hev
    · obtain ⟨g1, g2⟩ := h.good hs hpp hP
      refine ⟨_, (h.spec hs hpp).1, ?_, g2⟩
      exact g1.sublist (newSegs_sublist _)
  obtain ⟨hlt, -, -, hny⟩ := nextLine_parts hs hpp hb h2
  have hgw := beforeInts_good hs hpp hP hb hny h3 hg
  have hr : Reached E fuel s' := by
    rcases h1 with rfl | h
    · exact .first _ h2
    · exact .next _ _ h h2
  refine ⟨hgw.sorted, List.pairwise_map.1 (hr.good hs hpp hP).1⟩

/-- Segments in general position: it is enough that the error intervals of segments that may come one after the other on a line are not in the wrong
order, nor at corners their positions. -/
theorem tidy_generic [DenselyOrdered K] (hs : E.Sched) (hpp : E.PP) (hE : E.Exact) (hG : E.Generic) (hl : ∀ a y, E.On y a → E.lower a y ≤ E.atY a y)
    (hu : ∀ a y, E.On y a → E.atY a y ≤ E.upper a y) (hi : ∀ a y, E.On y a → E.negInf ≤ E.atY a y ∧ E.atY a y ≤ E.posInf)
    (hR : ∀ y a b, E.On y a → E.On y b → a ≠ b → E.InOrder y a b → E.lower a y ≤ E.upper b y)
    (hC : ∀ y a b, E.On y a → E.On y b → a ≠ b → E.Corner y → E.InOrder y a b → E.atY a y ≤ E.atY b y) (fuel : Nat) : E.Tidy fuel := by
  refine tidy_of_lines hs hpp hE hl hu hi (fun y a b => a ≠ b ∧ E.InOrder y a b) (fun y a b ha hb h => hR y a b ha hb h.1 h.2)
    (fun y a b ha hb hc h => hC y a b ha hb h.1 hc h.2) ?_
  intro s s' w h1 h2 h3
  obtain ⟨yl, hb, hr⟩ : ∃ yl, Between E yl s ∧ RestG E yl s := by
    rcases h1 with rfl | h
    · exact ⟨⊥, Between.init E, RestG.init E⟩
    · exact ⟨_, (h.spec hs hpp).1, (h.generic hG hs hpp).1⟩
  obtain ⟨hlt, -, -, hny⟩ := nextLine_parts hs hpp hb h2
  have g1 := (beforeInts_generic hG hs hpp hb hny h3 hr).line
  have g2 := (nextLine_generic hG hs hpp hb h2 hr).2
  have key : ∀ {l : List Entry}, OnLineG E s'.y l → l.Pairwise fun e f => e.seg ≠ f.seg ∧ E.InOrder s'.y e.seg f.seg := by
    intro l h
    have hnd : l.Pairwise fun e f => e.seg ≠ f.seg := List.pairwise_map.1 h.nodup
    exact hnd.and h.order
  exact ⟨key g1, key g2⟩

end Verif.Sweep
