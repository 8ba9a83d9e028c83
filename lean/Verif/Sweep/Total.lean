import Verif.Sweep.Planar
import Verif.Sweep.Balance

/-!
# The sweep does not panic: scans, entrances and exits

None of the `unwrap`s and assertions fails when the comparisons cover the common range of heights of the two segments and a definite
order is right.
-/

namespace Verif.Sweep
open Verif.Curve Verif.Range Verif.Topo
set_option linter.unusedSectionVars false

variable {K : Type} [LinearOrder K] {E : Env K}

/-- The comparisons of two segments that share a height are well formed, cover the common range, and a definite order is never wrong. -/
structure Env.Comparable (E : Env K) : Prop where
  wf : ∀ a b t, E.On t a → E.On t b → WF (E.cmp a b) ∧ (E.cmp a b).start = max (E.startY a) (E.startY b) ∧
    EndsAt (E.cmp a b) (min (E.endY a) (E.endY b))
  strict : ∀ a b t, E.On t a → E.On t b → max (E.startY a) (E.startY b) < min (E.endY a) (E.endY b) →
    ∀ p ∈ (E.cmp a b).iter, p.order ≠ .ish → p.lo < p.hi
  left : ∀ a b t, E.On t a → E.On t b → ∀ p ∈ (E.cmp a b).iter, p.order = .left → ∀ z, p.lo ≤ z → z ≤ p.hi → E.atY a z < E.atY b z
  right : ∀ a b t, E.On t a → E.On t b → ∀ p ∈ (E.cmp a b).iter, p.order = .right → ∀ z, p.lo ≤ z → z ≤ p.hi → E.atY b z < E.atY a z
  cons : ∀ a b t, E.On t a → E.On t b → WF (E.cons a b) ∧ EndsAt (E.cons a b) (min (E.endY a) (E.endY b))
  mid : ∀ a b : K, a ≤ b → a ≤ E.mid a b ∧ E.mid a b ≤ b

theorem orderAt_total {c : CurveOrder K} (h : WF c) {y z : K} (hE : EndsAt c z) (hy : y ≤ z) : ∃ o, c.orderAt y = some o := by
  cases h1 : c.orderAt y with
  | some o => exact ⟨o, rfl⟩
  | none => exact absurd ((C08_order_at_panics c h z hE y).1 h1) (not_lt.2 hy)

theorem orderAfter_total {c : CurveOrder K} {y z : K} (hE : EndsAt c z) : ∃ o, c.orderAfter y = some o := by
  obtain ⟨l, h1, -⟩ := hE
  unfold CurveOrder.orderAfter
  rw [h1]
  dsimp only
  split
  · exact ⟨_, rfl⟩
  · exact ⟨_, rfl⟩

theorem entryAt_total {c : CurveOrder K} {y z : K} (hE : EndsAt c z) (hy : y < z) : ∃ p, c.entryAt y = some p := by
  obtain ⟨p, h1, h2⟩ := wf_last_mem hE
  cases h3 : c.entryAt y with
  | some p => exact ⟨p, rfl⟩
  | none =>
    unfold CurveOrder.entryAt at h3
    have := List.find?_eq_none.1 h3 p h1
    rw [h2] at this
    simp [hy] at this

theorem touchEvent_total {y : K} {a b : Nat} (h : WF (E.cmp a b)) : ∃ r, touchEvent E y a b = some r := by
  obtain ⟨r, h1, -⟩ := C11_next_touch E.mid (E.cmp a b) h y ((E.cmp a b).cmps.length + 1) (Nat.lt_succ_self _)
  unfold touchEvent touch
  rw [h1]
  rcases r with _ | (_ | _) <;> exact ⟨_, rfl⟩

theorem scanRightLoop_total {y : K} {seg : Nat} (l : List Entry) (hl : ∀ o ∈ l, WF (E.cmp seg o.seg)) :
    ∀ hb q, ∃ q', scanRightLoop E y seg l hb q = some q' := by
  induction l with
  | nil => intro hb q; exact ⟨_, rfl⟩
  | cons o l ih =>
    intro hb q
    have ih := ih fun o ho => hl o (List.mem_cons_of_mem _ ho)
    simp only [scanRightLoop]
    split
    · exact ih _ _
    split
    · exact ⟨_, rfl⟩
    obtain ⟨r, hr⟩ := touchEvent_total (y := y) (hl o (by simp))
    rw [hr]
    rcases r with _ | ev <;> dsimp only <;> split
    · exact ⟨_, rfl⟩
    · exact ih _ _
    · exact ⟨_, rfl⟩
    · exact ih _ _

theorem scanLeftLoop_total {y : K} {seg : Nat} (l : List Entry) (hl : ∀ o ∈ l, WF (E.cmp o.seg seg)) :
    ∀ hb q, ∃ q', scanLeftLoop E y seg l hb q = some q' := by
  induction l with
  | nil => intro hb q; exact ⟨_, rfl⟩
  | cons o l ih =>
    intro hb q
    have ih := ih fun o ho => hl o (List.mem_cons_of_mem _ ho)
    simp only [scanLeftLoop]
    split
    · exact ih _ _
    split
    · exact ⟨_, rfl⟩
    obtain ⟨r, hr⟩ := touchEvent_total (y := y) (hl o (by simp))
    rw [hr]
    rcases r with _ | ev <;> dsimp only <;> split
    · exact ⟨_, rfl⟩
    · exact ih _ _
    · exact ⟨_, rfl⟩
    · exact ih _ _

theorem either {c : Prop} [Decidable c] {a b : Option Nat} {P : Nat → Prop} (h1 : ∃ r, a = some r ∧ P r) (h2 : ∃ r, b = some r ∧ P r) :
    ∃ r, (if c then a else b) = some r ∧ P r := by
  split
  · exact h1
  · exact h2

theorem insertionScan_le {y : K} {seg : Nat} (es : List Entry) : ∀ i idx r, idx ≤ i → insertionScan E y seg es i idx = some r → r ≤ i + es.length := by
  induction es with
  | nil => intro i idx r h1 h; simp only [insertionScan, Option.some.injEq] at h; subst h; simpa using h1
  | cons e es ih =>
    intro i idx r h1 h
    simp only [insertionScan] at h
    simp only [List.length_cons]
    split at h
    · simp at h
    · simp only [Option.some.injEq] at h; omega
    · split at h
      · simp at h
      · have := ih _ _ _ (Nat.le_refl _) h; omega
      · have := ih _ _ _ (by omega) h; omega
    · have := ih _ _ _ (Nat.le_refl _) h; omega

section
variable {y : K} {line : List Entry} (hK : E.Comparable) (hon : ∀ e ∈ line, E.On y e.seg)
include hK hon

theorem scanRight_total {i : Nat} (hi : i < line.length) (q : List (IEvent K)) : ∃ q', scanRight E y line i q = some q' := by
  unfold scanRight
  rw [List.getElem?_eq_getElem hi]
  dsimp only
  split
  · exact ⟨_, rfl⟩
  · exact scanRightLoop_total _ (fun o ho => (hK.wf _ _ y (hon _ (List.getElem_mem hi)) (hon o (List.mem_of_mem_drop ho))).1) _ _

theorem scanLeft_total {i : Nat} (hi : i < line.length) (q : List (IEvent K)) : ∃ q', scanLeft E y line i q = some q' := by
  unfold scanLeft
  rw [List.getElem?_eq_getElem hi]
  dsimp only
  split
  · exact ⟨_, rfl⟩
  · exact scanLeftLoop_total _ (fun o ho => (hK.wf _ _ y (hon o (List.mem_of_mem_take (List.mem_reverse.1 ho))) (hon _ (List.getElem_mem hi))).1) _ _

theorem scanBoth_total {i : Nat} (hi : i < line.length) (q : List (IEvent K)) : ∃ q', scanBoth E y line i q = some q' := by
  obtain ⟨q1, h1⟩ := scanRight_total hK hon hi q
  obtain ⟨q2, h2⟩ := scanLeft_total hK hon hi q1
  exact ⟨q2, by unfold scanBoth; rw [h1]; exact h2⟩

theorem scanForRemoval_total {i : Nat} (hi : i ≤ line.length) (q : List (IEvent K)) : ∃ q', scanForRemoval E y line i q = some q' := by
  unfold scanForRemoval
  split
  · exact scanBoth_total hK hon (by omega) q
  · exact ⟨_, rfl⟩

theorem insertScan_total {e : Entry} (he : E.On y e.seg) {pos : Nat} (hp : pos ≤ line.length) (q : List (IEvent K)) :
    ∃ r, insertScan E y line pos e q = some r := by
  unfold insertScan
  rw [if_pos hp]
  dsimp only
  obtain ⟨q', h⟩ := scanBoth_total (line := line.insertIdx pos e) (i := pos) hK (by
    intro f hf
    rcases (List.mem_insertIdx hp).1 hf with rfl | hf
    · exact he
    · exact hon f hf) (by rw [List.length_insertIdx_of_le_length hp]; omega) q
  rw [h]
  exact ⟨_, rfl⟩

theorem insertionScan_total {seg : Nat} (hseg : E.On y seg) (es : List Entry) (hes : ∀ e ∈ es, e ∈ line) :
    ∀ i idx, ∃ r, insertionScan E y seg es i idx = some r := by
  induction es with
  | nil => intro i idx; exact ⟨_, rfl⟩
  | cons e es ih =>
    intro i idx
    have ih := ih fun f hf => hes f (List.mem_cons_of_mem _ hf)
    have ho := hon e (hes e (by simp))
    obtain ⟨w1, w2, w3⟩ := hK.wf _ _ y ho hseg
    obtain ⟨o, h1⟩ := orderAt_total w1 w3 (le_min ho.2.2 hseg.2.2)
    obtain ⟨o', h2⟩ := orderAfter_total (y := y) w3
    simp only [insertionScan]
    rw [h1, h2]
    cases o <;> cases o' <;> dsimp only <;> first | exact ⟨_, rfl⟩ | exact ih _ _

theorem insertionIdx_total (hpp : E.PP) {seg : Nat} (hseg : E.On y seg) : ∃ r, insertionIdx E y line seg = some r ∧ r ≤ line.length := by
  have hle : ∀ p, E.pp p (line.map Entry.seg) ≤ line.length := fun p => by
    simpa using hpp.le p (line.map Entry.seg)
  have key : ∀ st ≤ line.length, ∃ r, insertionScan E y seg (line.drop st) st st = some r ∧ r ≤ line.length := by
    intro st hst
    obtain ⟨r, hr⟩ := insertionScan_total hK hon hseg (line.drop st) (fun f hf => List.mem_of_mem_drop hf) st st
    refine ⟨r, hr, ?_⟩
    have h1 := insertionScan_le _ _ _ _ (Nat.le_refl _) hr
    simp only [List.length_drop] at h1
    omega
  unfold insertionIdx
  dsimp only
  split
  · exact ⟨_, rfl, hle _⟩
  · rename_i e he
    have hlt := (List.getElem?_eq_some_iff.1 he).1
    refine either ?_ ?_
    · obtain ⟨w1, w2, w3⟩ := hK.wf _ _ y hseg (hon e (List.mem_of_getElem? he))
      obtain ⟨o, h2⟩ := orderAfter_total (y := y) w3
      rw [h2]
      cases o <;> dsimp only
      · exact ⟨_, rfl, hlt⟩
      · exact ⟨_, rfl, hle _⟩
      · exact ⟨_, rfl, hle _⟩
    · exact key _ (hle _)

end

/-! ## Entering -/

/-- Segments that follow each other in a contour are connected: the assertion of `handle_enter`. -/
theorem continuationPos_total {W : Type} [AddCommGroup W] {single : Nat → Bool → W} (hC : E.Contours single) {s : State K} {seg pos : Nat} (hseg : seg ∈ E.segs) (hst : E.startY seg = s.y) :
    ∃ r, continuationPos E s seg pos = some r := by
  unfold continuationPos
  split
  · exact ⟨_, rfl⟩
  rename_i c hc
  by_cases hlt : E.startY c < s.y
  · rw [if_pos hlt]
    have hcon : E.endX c = E.startX seg ∧ E.endY c = E.startY seg := by
      unfold Env.neighborAbove at hc
      by_cases ho : E.orient seg = true
      · rw [if_pos ho] at hc
        obtain ⟨c', c1, c2, c3⟩ := hC.prev seg hseg
        rw [hc, Option.some.injEq] at c2
        subst c2
        obtain ⟨n, n1, n2, n3, n4, -⟩ := hC.next c c1
        rw [c3, Option.some.injEq] at n2
        subst n2
        unfold Env.oEnd Env.oStart at n4
        rw [if_pos ho] at n4
        split_ifs at n4 with h
        · simpa using n4
        · simp only [Prod.mk.injEq] at n4
          rw [n4.2, hst] at hlt
          exact absurd hlt (lt_irrefl _)
      · rw [if_neg ho] at hc
        obtain ⟨n, n1, n2, n3, n4, -⟩ := hC.next seg hseg
        rw [hc, Option.some.injEq] at n2
        subst n2
        unfold Env.oEnd Env.oStart at n4
        rw [if_neg ho] at n4
        split_ifs at n4 with h
        · simp only [Prod.mk.injEq] at n4
          rw [← n4.2, hst] at hlt
          exact absurd hlt (lt_irrefl _)
        · simp only [Prod.mk.injEq] at n4
          exact ⟨n4.1.symm, n4.2.symm⟩
    rw [if_pos hcon]
    split_ifs <;> exact ⟨_, rfl⟩
  · rw [if_neg hlt]; exact ⟨_, rfl⟩

theorem handleEnter_total {W : Type} [AddCommGroup W] {single : Nat → Bool → W} (hC : E.Contours single) (hK : E.Comparable) (hpp : E.PP) {s : State K} {seg : Nat}
    (hon : ∀ e ∈ s.line, E.On s.y e.seg) (hseg : seg ∈ E.segs) (hst : E.startY seg = s.y) (hdown : E.startY seg ≤ E.endY seg) :
    ∃ s', handleEnter E s seg = some s' := by
  unfold handleEnter
  by_cases hh : E.isHorizontal seg = true
  · rw [if_pos hh]; exact ⟨_, rfl⟩
  rw [if_neg hh]
  have hlt : E.startY seg < E.endY seg := lt_of_le_of_ne hdown (by simpa [Env.isHorizontal] using hh)
  have ho : E.On s.y seg := ⟨⟨hseg, hlt⟩, hst.le, by rw [← hst]; exact hdown⟩
  obtain ⟨pos, h1, h2⟩ := insertionIdx_total hK hon hpp ho
  rw [h1]
  dsimp only
  obtain ⟨r, hr⟩ := continuationPos_total hC (s := s) (pos := pos) hseg hst
  rw [hr]
  cases r with
  | none =>
    dsimp only
    obtain ⟨r, hr⟩ := insertScan_total hK hon (e := { Entry.new seg with enter := true, exit := false }) ho h2 s.ints
    rw [hr]
    exact ⟨_, rfl⟩
  | some p =>
    dsimp only
    have hp : p < s.line.length := by
      unfold continuationPos at hr
      split at hr
      · simp at hr
      · rename_i c hc
        split_ifs at hr with g1 g2 g3 g4
        · simp only [Option.some.injEq] at hr
          subst hr
          obtain ⟨e, he, -⟩ := Option.map_eq_some_iff.1 g3
          exact (List.getElem?_eq_some_iff.1 he).1
        · simp only [Option.some.injEq] at hr
          subst hr
          obtain ⟨e, he, -⟩ := Option.map_eq_some_iff.1 g4.2
          exact (List.getElem?_eq_some_iff.1 he).1
        · simp at hr
        · simp at hr
    unfold handleContinuation
    rw [List.getElem?_eq_getElem hp]
    dsimp only
    obtain ⟨q, hq⟩ := scanBoth_total (line := s.line.set p { s.line[p] with oldSeg := some s.line[p].seg, seg := seg, enter := true, exit := true }) (i := p) hK (by
      intro f hf
      rcases List.mem_or_eq_of_mem_set hf with hf | rfl
      · exact hon f hf
      · exact ho) (by simpa using hp) s.ints
    rw [hq]
    exact ⟨_, rfl⟩

/-- The line holds only segments of these heights. -/
theorem EnterInv.on {y : K} {S0 done : List Nat} {s : State K} (h : EnterInv E y S0 done s) (h0 : ∀ x ∈ S0, E.On y x)
    (hd : ∀ x ∈ done, x ∈ E.segs ∧ E.startY x = y ∧ E.startY x ≤ E.endY x) : ∀ e ∈ s.line, E.On y e.seg := by
  intro e he
  have : e.seg ∈ lineIds s.line := mem_lineIds.2 ⟨e, he, by simp [Entry.ids]⟩
  rw [h.ids.mem_iff, List.mem_append, List.mem_filter] at this
  rcases this with h1 | ⟨h1, h2⟩
  · exact h0 _ h1
  · obtain ⟨g1, g2, g3⟩ := hd _ h1
    exact ⟨⟨g1, lt_of_le_of_ne g3 (by simpa [Env.isHorizontal] using h2)⟩, g2.le, g2 ▸ g3⟩

theorem handleAll_enter_total {W : Type} [AddCommGroup W] {single : Nat → Bool → W} (hC : E.Contours single) (hK : E.Comparable) (hpp : E.PP) {y : K} {S0 : List Nat} (h0 : ∀ x ∈ S0, E.On y x)
    (l : List (K × Nat)) : ∀ {done : List Nat} {s : State K}, EnterInv E y S0 done s →
      (∀ x ∈ done, x ∈ E.segs ∧ E.startY x = y ∧ E.startY x ≤ E.endY x) →
      (∀ p ∈ l, p.1 = y ∧ p.2 ∈ E.segs ∧ E.startY p.2 = y ∧ E.startY p.2 ≤ E.endY p.2) →
      ∃ s', handleAll (handleEnter E) y l s = some s' := by
  induction l with
  | nil => intro done s _ _ _; exact ⟨_, rfl⟩
  | cons p l ih =>
    intro done s h hd hl
    obtain ⟨p1, p2, p3, p4⟩ := hl p (by simp)
    obtain ⟨s1, hs1⟩ := handleEnter_total hC hK hpp (s := s) (seg := p.2) (by rw [h.y_eq]; exact h.on h0 hd) p2 (by rw [h.y_eq]; exact p3) p4
    obtain ⟨g1, -⟩ := handleEnter_inv h p3 hs1
    obtain ⟨s', hs'⟩ := ih g1 (by
      intro x hx
      rcases List.mem_append.1 hx with hx | hx
      · exact hd x hx
      · rw [List.mem_singleton.1 hx]; exact ⟨p2, p3, p4⟩) (fun q hq => hl q (List.mem_cons_of_mem _ hq))
    refine ⟨s', ?_⟩
    simp only [handleAll]
    rw [if_pos p1, hs1]
    exact hs'

/-! ## Leaving -/

theorem position_total {line : List Entry} {seg : Nat} (h : seg ∈ lineIds line) : ∃ i, position line seg = some i := by
  obtain ⟨e, he, hx⟩ := mem_lineIds.1 h
  unfold position
  cases hf : line.findIdx? fun e => decide (e.seg = seg) || decide (e.oldSeg = some seg) with
  | some i => exact ⟨i, rfl⟩
  | none =>
    exfalso
    rw [List.findIdx?_eq_none_iff] at hf
    have := hf e he
    simp only [Bool.or_eq_false_iff, decide_eq_false_iff_not] at this
    rw [Entry.ids, List.mem_cons] at hx
    rcases hx with rfl | hx
    · exact this.1 rfl
    · exact this.2 (by simpa using hx)

theorem handleExit_total (hK : E.Comparable) {s : State K} {seg : Nat} (hon : ∀ e ∈ s.line, E.On s.y e.seg) (hseg : seg ∈ lineIds s.line) :
    ∃ s', handleExit E s seg = some s' := by
  obtain ⟨pos, hpos⟩ := position_total hseg
  obtain ⟨e, he, -⟩ := position_some hpos
  have hlt := (List.getElem?_eq_some_iff.1 he).1
  unfold handleExit
  rw [hpos]
  dsimp only
  rw [he]
  dsimp only
  split
  · exact ⟨_, rfl⟩
  · obtain ⟨q, hq⟩ := scanForRemoval_total (line := s.line.set pos { e with exit := true }) (i := pos) hK (by
      intro f hf
      rcases List.mem_or_eq_of_mem_set hf with hf | rfl
      · exact hon f hf
      · exact hon e (List.mem_of_getElem? he)) (by rw [List.length_set]; omega) s.ints
    rw [hq]
    exact ⟨_, rfl⟩

theorem handleAll_exit_total (hK : E.Comparable) {y : K} {S0 I : List Nat} (hI : ∀ x ∈ I, E.On y x) (l : List (K × Nat)) :
    ∀ {done : List Nat} {s : State K}, ExitInv E y S0 I done s → (∀ p ∈ l, p.1 = y ∧ p.2 ∈ I ∧ E.endY p.2 = y) →
      ∃ s', handleAll (handleExit E) y l s = some s' := by
  induction l with
  | nil => intro done s _ _; exact ⟨_, rfl⟩
  | cons p l ih =>
    intro done s h hl
    obtain ⟨p1, p2, p3⟩ := hl p (by simp)
    obtain ⟨s1, hs1⟩ := handleExit_total hK (s := s) (seg := p.2) (by
      rw [h.y_eq]
      intro e he
      exact hI _ (h.ids.mem_iff.1 (mem_lineIds.2 ⟨e, he, by simp [Entry.ids]⟩))) (h.ids.mem_iff.2 p2)
    have hh : E.isHorizontal p.2 = false := by
      have := (hI _ p2).1.2
      unfold Env.isHorizontal
      rw [decide_eq_false_iff_not]
      exact this.ne
    obtain ⟨g1, -⟩ := handleExit_inv h p3 hh hs1
    obtain ⟨s', hs'⟩ := ih g1 (fun q hq => hl q (List.mem_cons_of_mem _ hq))
    refine ⟨s', ?_⟩
    simp only [handleAll]
    rw [if_pos p1, hs1]
    exact hs'

/-! ## The first half of `next_line` -/

/-- After the entrances and exits at the height `y`; `S0` are the segments on the line above. -/
structure Ready (E : Env K) (y : K) (S0 : List Nat) (w : State K) : Prop where
  y_eq : w.y = y
  old : oldSegs w.line = S0
  blank : ∀ e ∈ w.line, e.inCh = false ∧ e.oldIdx = none
  kinds : ∀ e ∈ w.line, Kind E y e
  nodup : (lineIds w.line).Nodup
  mem : ∀ x, x ∈ lineIds w.line ↔ x ∈ E.segs ∧ E.isHorizontal x = false ∧ E.startY x ≤ y ∧ y ≤ E.endY x
  gone : ∀ x ∈ lineIds w.line, E.endY x = y → ∃ e ∈ w.line, (e.seg = x ∧ e.exit = true ∧ e.oldSeg = none) ∨ e.oldSeg = some x
  move : MoveInv w.line w.line w.snp
  queue : QInv y w.ints
  horiz : ∀ x ∈ w.horiz, x ∈ E.segs ∧ E.isHorizontal x = true ∧ E.startY x = y

theorem atHeight_y {y : K} {l : List (K × Nat)} {n : Nat} (hs : l.Pairwise fun a b => a.1 ≤ b.1) (h : ∀ p, l[n]? = some p → y ≤ p.1) :
    ∀ p ∈ atHeight y l n, p.1 = y := by
  intro p hp
  have h1 : p.1 ≤ y := by
    have := List.mem_takeWhile_imp hp
    simpa using this
  refine le_antisymm h1 ?_
  obtain ⟨i, hi⟩ := List.mem_iff_getElem?.1 (((List.takeWhile_prefix _).sublist).subset hp)
  rw [List.getElem?_drop] at hi
  obtain ⟨hlt, he⟩ := List.getElem?_eq_some_iff.1 hi
  have hn : n < l.length := by omega
  have h2 := h l[n] (List.getElem?_eq_getElem hn)
  rcases Nat.eq_zero_or_pos i with h0 | h0
  · subst h0
    rw [← he]; exact h2
  · rw [← he]
    exact h2.trans ((List.pairwise_iff_getElem.1 hs) n (n + i) hn hlt (by omega))

theorem On.of_mem {y : K} {x : Nat} (hs : E.Sched) (h1 : x ∈ E.segs) (h2 : E.isHorizontal x = false) (h3 : E.startY x ≤ y) (h4 : y ≤ E.endY x) : E.On y x :=
  ⟨⟨h1, lt_of_le_of_ne (hs.down x h1) (by simpa [Env.isHorizontal] using h2)⟩, h3, h4⟩

theorem beforeInts_total {W : Type} [AddCommGroup W] {single : Nat → Bool → W} (hC : E.Contours single) (hs : E.Sched) (hK : E.Comparable) (hpp : E.PP) {yl : WithBot K} {s : State K} (hb : Between E yl s) (hsnp : ∀ i ∈ s.snp, i < s.line.length)
    {y : K} (hy : nextY E s = some y) : ∃ w, beforeInts E s = some w ∧ Ready E y (newSegs s.line) w := by
  obtain ⟨s1, hs1⟩ : ∃ s1, advance s y = some s1 := by
    unfold advance
    rw [if_pos (by simpa using hsnp)]
    exact ⟨_, rfl⟩
  obtain ⟨a1, a2, a3, a4, a5, a6, a7, a8⟩ := advance_spec hb.done hs1
  obtain ⟨n1, n2, n3, n4⟩ := nextY_some hy
  have hlt : yl < y := by
    rcases n1 with ⟨p, h1, h2⟩ | ⟨p, h1, h2⟩ | ⟨e, h1, h2⟩
    · rw [← h2]
      by_contra hc
      have := (hb.enter _ p h1).2 (not_lt.1 hc)
      omega
    · rw [← h2]
      by_contra hc
      have := (hb.exit _ p h1).2 (not_lt.1 hc)
      omega
    · rw [← h2]
      exact hb.later e (List.mem_of_mem_head? h1)
  have hE0 : EnterInv E y (newSegs s.line) [] { s1 with nextEnter := s.nextEnter + (atHeight y E.entrances s.nextEnter).length } := by
    constructor
    case y_eq => exact a1
    case old => show oldSegs s1.line = _; rw [a2, oldSegs_new]
    case blank =>
      intro e he
      change e ∈ s1.line at he
      rw [a2] at he
      obtain ⟨x, _, rfl⟩ := List.mem_map.1 he
      exact ⟨rfl, rfl⟩
    case kinds =>
      intro e he
      change e ∈ s1.line at he
      rw [a2] at he
      obtain ⟨x, _, rfl⟩ := List.mem_map.1 he
      exact .stays rfl rfl rfl
    case ids => show (lineIds s1.line).Perm _; rw [a2, lineIds_new]; simp
    case horiz => show s1.horiz = _; rw [a6]; rfl
    case sorted => show s1.snp.Pairwise _; rw [a7]; exact .nil
    case snp =>
      intro i
      show i ∈ s1.snp ↔ ∃ e, s1.line[i]? = some e ∧ e.enter = true
      rw [a7, a2]
      constructor
      · intro hi; simp at hi
      · rintro ⟨e, h1, h2⟩
        obtain ⟨x, _, rfl⟩ := List.mem_map.1 (List.mem_of_getElem? h1)
        simp [Entry.new] at h2
  have hsubE : ∀ p ∈ atHeight y E.entrances s.nextEnter, p ∈ E.entrances := fun p hp =>
    ((List.takeWhile_prefix _).sublist.trans (List.drop_sublist _ _)).subset hp
  have hEy := atHeight_y (n := s.nextEnter) hs.enter_sorted n2
  have hXy := atHeight_y (n := s.nextExit) hs.exit_sorted n3
  have hold : ∀ x ∈ newSegs s.line, E.On y x := by
    intro x hx
    obtain ⟨h1, h2, h3, h4⟩ := (hb.mem x).1 hx
    refine On.of_mem hs h1 h2 (WithBot.coe_le_coe.1 (h3.trans hlt.le)) ?_
    obtain ⟨p, hp, rfl⟩ := List.mem_map.1 ((hs.exit_mem x).2 ⟨h1, h2⟩)
    have := hb.exit.head hs.exit_sorted n3 hp (by rw [hs.exit_y p hp]; exact h4)
    rwa [hs.exit_y p hp] at this
  have hent : ∀ p ∈ atHeight y E.entrances s.nextEnter, p.1 = y ∧ p.2 ∈ E.segs ∧ E.startY p.2 = y ∧ E.startY p.2 ≤ E.endY p.2 := by
    intro p hp
    have h1 := hsubE p hp
    have h2 : p.2 ∈ E.segs := List.mem_map_of_mem h1
    exact ⟨hEy p hp, h2, (hs.enter_y p h1).symm.trans (hEy p hp), hs.down _ h2⟩
  obtain ⟨s2, hs2⟩ := handleAll_enter_total hC hK hpp hold (atHeight y E.entrances s.nextEnter) hE0 (by simp) hent
  obtain ⟨b1, b2, b3, b4, b5, b6⟩ := handleAll_enter _ hE0 (fun p hp => hs.enter_y p (hsubE p hp)) hs2
  rw [List.nil_append] at b1
  obtain ⟨d1, d2, d3⟩ := hb.enter.next hs.enter_sorted hlt b6
  dsimp only at b3 b4
  rw [a4] at b4
  have hsubX : ∀ p ∈ atHeight y E.exits s.nextExit, p ∈ E.exits := fun p hp =>
    ((List.takeWhile_prefix _).sublist.trans (List.drop_sublist _ _)).subset hp
  have hX0 : ExitInv E y (newSegs s.line) (newSegs s.line ++ ((atHeight y E.entrances s.nextEnter).map Prod.snd).filter fun x => !E.isHorizontal x) []
      { s2 with nextExit := s.nextExit + (atHeight y E.exits s.nextExit).length } := by
    have := b1.exitInv
    exact ⟨this.y_eq, this.old, this.blank, this.kinds, this.ids, this.snp, this.gone⟩
  -- what is on the line
  have hidm : ∀ x, x ∈ (newSegs s.line ++ ((atHeight y E.entrances s.nextEnter).map Prod.snd).filter fun x => !E.isHorizontal x) ↔
      x ∈ newSegs s.line ∨ (x ∈ E.segs ∧ E.startY x = y ∧ E.isHorizontal x = false) := by
    intro x
    rw [List.mem_append, List.mem_filter, List.mem_map]
    constructor
    · rintro (h1 | ⟨⟨p, h1, rfl⟩, h2⟩)
      · exact .inl h1
      · right
        have := (d2 p).1 h1
        refine ⟨List.mem_map_of_mem this.1, by rw [← hs.enter_y p this.1]; exact this.2, by simpa using h2⟩
    · rintro (h1 | ⟨h1, h2, h3⟩)
      · exact .inl h1
      · obtain ⟨p, hp, rfl⟩ := List.mem_map.1 h1
        exact .inr ⟨⟨p, (d2 p).2 ⟨hp, by rw [hs.enter_y p hp]; exact h2⟩, rfl⟩, by simp [h3]⟩
  have hmem : ∀ x, x ∈ (newSegs s.line ++ ((atHeight y E.entrances s.nextEnter).map Prod.snd).filter fun x => !E.isHorizontal x) ↔
      x ∈ E.segs ∧ E.isHorizontal x = false ∧ E.startY x ≤ y ∧ y ≤ E.endY x := by
    intro x
    rw [hidm, hb.mem]
    constructor
    · rintro (⟨h1, h2, h3, h4⟩ | ⟨h1, h2, h3⟩)
      · have := hold x ((hb.mem x).2 ⟨h1, h2, h3, h4⟩)
        exact ⟨h1, h2, this.2⟩
      · exact ⟨h1, h3, h2.le, by rw [← h2]; exact hs.down x h1⟩
    · rintro ⟨h1, h2, h3, h4⟩
      by_cases h5 : (E.startY x : WithBot K) ≤ yl
      · exact .inl ⟨h1, h2, h5, hlt.trans_le (WithBot.coe_le_coe.2 h4)⟩
      · right
        refine ⟨h1, le_antisymm h3 ?_, h2⟩
        obtain ⟨p, hp, rfl⟩ := List.mem_map.1 h1
        have := hb.enter.head hs.enter_sorted n2 hp (by rw [hs.enter_y p hp]; exact not_le.1 h5)
        rwa [hs.enter_y p hp] at this
  obtain ⟨s3, hs3⟩ := handleAll_exit_total hK (fun x hx => by
      obtain ⟨h1, h2, h3, h4⟩ := (hmem x).1 hx
      exact On.of_mem hs h1 h2 h3 h4) (atHeight y E.exits s.nextExit) hX0 (by
    intro p hp
    have h1 := hsubX p hp
    obtain ⟨h2, h3⟩ := (hs.exit_mem p.2).1 (List.mem_map_of_mem h1)
    have h4 : E.endY p.2 = y := (hs.exit_y p h1).symm.trans (hXy p hp)
    exact ⟨hXy p hp, (hmem _).2 ⟨h2, h3, h4 ▸ hs.down _ h2, h4.ge⟩, h4⟩)
  obtain ⟨c1, c2, c3, c4, c5, c6, c7⟩ := handleAll_exit _ hX0 (fun p hp => ⟨hs.exit_y p (hsubX p hp), by
    have := (hs.exit_mem p.2).1 (List.mem_map_of_mem (hsubX p hp))
    exact this.2⟩) hs3
  rw [List.nil_append] at c1
  obtain ⟨x1, x2, x3⟩ := hb.exit.next hs.exit_sorted hlt c7
  have hq0 : QInv y s1.ints := by
    rw [a5]
    refine ⟨hb.sorted, ?_⟩
    intro e he
    cases hi : s.ints with
    | nil => rw [hi] at he; simp at he
    | cons f fs =>
      have hso := hb.sorted
      rw [hi] at he hso
      exact (n4 f (by rw [hi]; rfl)).trans (hso.head_le e he)
  refine ⟨s3, ?_, c1.y_eq, c1.old, c1.blank, c1.kinds, ?_, ?_, ?_, c1.moveInv, c2 (b2 hq0), ?_⟩
  · unfold beforeInts
    rw [hy]
    dsimp only
    rw [hs1]
    dsimp only
    rw [a3, hs2]
    dsimp only
    rw [b4, hs3]
  · rw [c1.ids.nodup_iff, List.nodup_append]
    refine ⟨hb.nodup, ?_, ?_⟩
    · exact ((d3.map Prod.snd).nodup hs.enter_nodup).filter _
    · intro a ha b hb' hab
      subst hab
      obtain ⟨h1, _⟩ := List.mem_filter.1 hb'
      obtain ⟨p, hp, rfl⟩ := List.mem_map.1 h1
      have h2 := ((hb.mem _).1 ha).2.2.1
      have h3 := (d2 p).1 hp
      rw [← hs.enter_y p h3.1, h3.2] at h2
      exact absurd hlt (not_lt.2 h2)
  · intro x; rw [c1.ids.mem_iff, hmem]
  · intro x hx hxy
    rw [c1.ids.mem_iff] at hx
    have h1 := (hmem x).1 hx
    obtain ⟨p, hp, rfl⟩ := List.mem_map.1 ((hs.exit_mem x).2 ⟨h1.1, h1.2.1⟩)
    exact c1.gone p.2 (List.mem_map_of_mem ((x2 p).2 ⟨hp, by rw [hs.exit_y p hp]; exact hxy⟩))
  · intro x hx
    rw [c6] at hx
    change x ∈ s2.horiz at hx
    rw [b1.horiz, List.mem_filter] at hx
    obtain ⟨p, hp, rfl⟩ := List.mem_map.1 hx.1
    exact ⟨(hent p hp).2.1, hx.2, (hent p hp).2.2.1⟩

end Verif.Sweep
