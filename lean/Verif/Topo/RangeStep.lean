import Verif.Topo.Line

namespace Verif.Topo
open Verif.Range
set_option linter.unusedSectionVars false

variable {K : Type} [LinearOrder K] {W : Type} [AddCommGroup W]

/-- What the sweep guarantees about one range: `A ++ Eo ++ B` is the sweep line before, `A ++ En ++ B` after. -/
structure RangeHyp (single : Nat → Bool → W) (orient : Nat → Bool) (hist : List (K × OutputEvent K))
    (A B : List Nat) (y : K) (E Eo En : List (OutputEvent K)) (east : Option Nat) : Prop where
  spec : RangeSpec (contribOf single orient) E Eo En
  /-- segments that enter are not on the sweep line yet -/
  fresh : ∀ e ∈ E, e.connectedAbove = false → e.segIdx ∉ A ++ Eo.map OutputEvent.segIdx ++ B
  /-- the sweep goes down -/
  down : ∀ q ∈ hist, q.1 ≤ y
  /-- a segment has at most one event at each height -/
  once : ∀ q ∈ hist, ∀ e ∈ E, q.2.segIdx = e.segIdx → q.1 < y
  /-- the east neighbour is on the sweep line, to the right -/
  eastIn : ∀ s, east = some s → s ∈ B

theorem LineInv.congrScan {single : Nat → Bool → W} {orient : Nat → Bool} {hist : List (K × OutputEvent K)}
    {line : List Nat} {t : Topo K W} (h : LineInv single orient hist line t) (a : Nat → Option Nat)
    (b : List (K × Option Nat × Option Nat)) :
    LineInv single orient hist line { t with scanEast := a, scanAfter := b } := by
  exact ⟨⟨h.good.ptLt, h.good.firstSome, h.good.order, h.good.openIff, h.good.openNodup, h.good.rings, h.good.sgn,
    h.good.west, h.good.notDeleted⟩, h.nodup, h.openIn, h.openOut, h.walk, h.closed, h.traced, h.cover, h.uniq,
    h.heights, h.mono, by
      obtain ⟨B, h1, h2⟩ := h.shape
      exact ⟨B, ⟨h1.m0, h1.next, h1.last, h1.ring, h1.down, h1.flat, h1.westD, h1.westG, h1.westDown⟩, h2⟩, h.adj⟩

theorem concat_split {α : Type} {l l0 : List α} {a b : α} {l' : List α} {c : α} (h : l0 ++ [c] = l ++ a :: b :: l') :
    (l' = [] ∧ b = c ∧ l0 = l ++ [a]) ∨ ∃ l'', l' = l'' ++ [c] ∧ l0 = l ++ a :: b :: l'' := by
  rcases List.eq_nil_or_concat l' with rfl | ⟨l'', d, rfl⟩
  · left
    have : l ++ [a, b] = (l ++ [a]) ++ [b] := by simp
    rw [this] at h
    have := List.append_inj' h rfl
    refine ⟨rfl, ?_, this.1⟩
    have h2 := this.2
    simp at h2; exact h2.symm
  · right
    have : l ++ a :: b :: (l'' ++ [d]) = (l ++ a :: b :: l'') ++ [d] := by simp
    rw [List.concat_eq_append, this] at h
    have := List.append_inj' h rfl
    refine ⟨l'', ?_, this.1⟩
    have h2 := this.2
    simp at h2; rw [List.concat_eq_append, h2]

/-- What the loop of one range does to the bookkeeping of neighbours. `nOf s` is the new output segment of the input segment `s`. -/
structure Effect (y : K) (A B : List Nat) (Eo En : List (OutputEvent K)) (t : Topo K W) (sw : Option Nat) (s : LoopState K W)
    (nOf : Nat → Nat) : Prop where
  n_le : t.n ≤ s.t.n
  pidx_old : ∀ h p, t.pointIdx h = some p → s.t.pointIdx h = some p
  points_old : ∃ ps, s.t.points = t.points ++ ps ∧ ∀ q ∈ ps, q.2 = y
  west_old : ∀ i < t.n, s.t.scanWest i = t.scanWest i
  orig_old : ∀ i < t.n, s.t.origSeg i = t.origSeg i
  wind_old : ∀ i < t.n, s.t.winding i = t.winding i
  east_old : ∀ i < t.n, s.t.scanEast i = t.scanEast i
  east_new : ∀ i, t.n ≤ i → i < s.t.n → s.t.scanEast i = none
  after_old : s.t.scanAfter = t.scanAfter
  open_old : ∀ a, a ∈ A ∨ a ∈ B → s.t.openSegs a = t.openSegs a
  new : ∀ e ∈ En, s.t.openSegs e.segIdx = [nOf e.segIdx] ∧ t.n ≤ nOf e.segIdx ∧ nOf e.segIdx < s.t.n ∧
    ∃ p, s.t.pointIdx ⟨nOf e.segIdx, true⟩ = some p ∧ s.t.points[p]? = some (e.x1, y)
  west : ∀ l1 a l2, (En.map fun e => nOf e.segIdx) = l1 ++ a :: l2 → s.t.scanWest a = l1.getLast?.or sw
  last : s.lastDown = (En.map fun e => nOf e.segIdx).getLast?
  kinds : ∀ i, t.n ≤ i → i < s.t.n → (∃ e ∈ En, i = nOf e.segIdx) ∨ ∃ a b, Runs s.t i (a, y) (b, y)
  vert_old : ∀ i < t.n, t.pointIdx ⟨i, false⟩ = none → ∀ a b, Runs s.t i a b → a.2 ≠ b.2
  closed : ∀ e ∈ Eo, ∃ p, s.t.pointIdx ⟨(t.openSegs e.segIdx).headD 0, false⟩ = some p ∧ s.t.points[p]? = some (e.x0, y)

theorem range_loop (single : Nat → Bool → W) (orient : Nat → Bool)
    (hsingle : ∀ s b, single s (!b) = - single s b) (hist : List (K × OutputEvent K)) (A B : List Nat) (y : K)
    (E Eo En : List (OutputEvent K)) (east : Option Nat) (H : RangeHyp single orient hist A B y E Eo En east)
    (t : Topo K W) (hinv : LineInv single orient hist (A ++ Eo.map OutputEvent.segIdx ++ B) t)
    (w : W) (sw : Option Nat) (hsw : sw = A.getLast?.bind fun s => (t.openSegs s).head?)
    (hw : w = eastOf t sw) :
    ∃ s, processLoop single orient y ⟨t, SLRange.new E, w, sw, none⟩ = some s ∧
      LineInv single orient (hist ++ E.map fun e => (y, e)) (A ++ En.map OutputEvent.segIdx ++ B) s.t ∧
      (s.lastDown = none → En = []) ∧ ∃ nOf, Effect y A B Eo En t sw s nOf := by
  have hspec := H.spec
  have hnd := hspec.nodup
  have hEo : ∀ e, e ∈ Eo ↔ e ∈ E ∧ e.connectedAbove = true := by
    intro e; rw [hspec.olds.mem_iff, List.mem_filter]
  have hEn : ∀ e, e ∈ En ↔ e ∈ E ∧ e.connectedBelow = true := by
    intro e; rw [hspec.news.mem_iff, List.mem_filter]
  have hg := hinv.good
  -- segments of the range and the rest of the line
  have lnd := hinv.nodup
  rw [List.append_assoc, List.nodup_append] at lnd
  obtain ⟨ndA, ndEB, dAEB⟩ := lnd
  rw [List.nodup_append] at ndEB
  obtain ⟨ndEo, ndB, dEB⟩ := ndEB
  have notE : ∀ s, s ∈ A ∨ s ∈ B → ∀ e ∈ E, e.segIdx ≠ s := by
    intro s hs e he heq
    by_cases ha : e.connectedAbove = true
    · have hm : e.segIdx ∈ Eo.map OutputEvent.segIdx := List.mem_map_of_mem ((hEo e).2 ⟨he, ha⟩)
      rcases hs with hs | hs
      · exact dAEB s hs e.segIdx (List.mem_append.2 (.inl hm)) heq.symm
      · exact dEB e.segIdx hm s hs heq
    · refine H.fresh e he (by simpa using ha) ?_
      rw [heq]
      simp only [List.mem_append]; tauto
  have openO : ∀ e ∈ E, e.connectedAbove = true → ∃ o y0 e0 l, t.openSegs e.segIdx = [o] ∧
      evs hist e.segIdx = l ++ [(y0, e0)] ∧ Vert orient t y0 e0 o := by
    intro e he ha
    apply hinv.openIn
    have hm : e.segIdx ∈ Eo.map OutputEvent.segIdx := List.mem_map_of_mem ((hEo e).2 ⟨he, ha⟩)
    simp only [List.mem_append]; tauto
  have evsSeg : ∀ s p, p ∈ evs hist s → p ∈ hist ∧ p.2.segIdx = s := by
    intro s p hp
    unfold evs at hp
    rw [List.mem_filter, decide_eq_true_eq] at hp
    exact hp
  have h0 : ∀ e ∈ E, e.connectedAbove = true → ∃ o, t.openSegs e.segIdx = [o] ∧ t.positive o = orient e.segIdx := by
    intro e he ha
    obtain ⟨o, y0, e0, l, h1, h2, h3⟩ := openO e he ha
    refine ⟨o, h1, ?_⟩
    have : e0.segIdx = e.segIdx := (evsSeg _ (y0, e0) (by rw [h2]; simp)).2
    rw [h3.2.2.1, this]
  have hstart : ∀ e ∈ E, e.connectedAbove = true → ∃ p b, t.pointIdx ⟨(t.openSegs e.segIdx).headD 0, true⟩ = some p ∧
      t.points[p]? = some b ∧ b.2 < y := by
    intro e he ha
    obtain ⟨o, y0, e0, l, h1, h2, h3⟩ := openO e he ha
    obtain ⟨p, k1, k2⟩ := h3.2.2.2.2.1
    obtain ⟨m1, m2⟩ := evsSeg _ (y0, e0) (by rw [h2]; simp)
    refine ⟨p, _, by rw [h1]; exact k1, k2, ?_⟩
    exact H.once _ m1 e he m2
  have hopen : ∀ e ∈ E, t.openSegs e.segIdx =
      if e.connectedAbove = true then [(t.openSegs e.segIdx).headD 0] else [] := by
    intro e he
    by_cases ha : e.connectedAbove = true
    · obtain ⟨o, h1, _⟩ := h0 e he ha
      rw [if_pos ha, h1]; rfl
    · rw [if_neg ha]
      exact (hinv.openOut _ (H.fresh e he (by simpa using ha))).1
  -- the walk along the old line
  have walk := hinv.walk
  rw [List.append_assoc, List.map_append, List.map_append] at walk
  obtain ⟨m, wA, walk2⟩ := walk.split
  obtain ⟨wEnd, wO, wB⟩ := walk2.split
  rw [List.map_map] at wO
  have hm : m = w := by
    rw [wA.last, hw, hsw, List.getLast?_map]
    cases hA : A.getLast? with
    | none => rfl
    | some s =>
      have hsA : s ∈ A := List.mem_of_getLast? hA
      obtain ⟨o, _, _, _, h1, _⟩ := hinv.openIn s (by simp [hsA])
      simp [h1, eastOf]
  subst hm
  have hswlt : ∀ j, sw = some j → j < t.n := by
    intro j hj
    rw [hsw] at hj
    rw [Option.bind_eq_some_iff] at hj
    obtain ⟨s, _, h2⟩ := hj
    exact ((hg.openIff j s).1 (List.mem_of_head? h2)).1
  have hshape : ∃ B', Shape t B' ∧ lastG t B' = [] ∧ ∀ i, sw = some i → ∃ p < t.points.length, i ∈ (B' p).downs := by
    obtain ⟨B', h1, h2⟩ := hinv.shape
    refine ⟨B', h1, h2, ?_⟩
    intro i hi
    rw [hsw, Option.bind_eq_some_iff] at hi
    obtain ⟨a, ha1, ha2⟩ := hi
    exact h1.open_down h2 hg i a (List.mem_of_head? ha2)
  have start := linv_start single orient y E Eo En t hg m wEnd sw hopen hswlt
    hw hshape wO
  obtain ⟨s, cur, hOf, nOf, hrun, hx, L⟩ := loop_spec single orient hsingle y E Eo En hspec t m wEnd sw hg h0 hstart _ _ _ _ _
    (le_refl _) start
  refine ⟨s, hrun, ?_⟩
  -- everything has been visited
  obtain ⟨hact, hev⟩ := x_none s.r hx
  have hle : ∀ e ∈ E, (e.smallerX : WithBot K) ≤ cur ∧ (e.largerX : WithBot K) ≤ cur := by
    intro e he
    obtain ⟨pre, e1, e2, e3⟩ := L.r.split
    rw [hev, List.append_nil] at e1
    have hs := e2 e (e1 ▸ he)
    refine ⟨hs, ?_⟩
    by_contra hc
    have : frag e ∈ s.r.active := by
      rw [e3.mem_iff]
      exact List.mem_map_of_mem (List.mem_filter.2 ⟨e1 ▸ he, by simpa using hc⟩)
    rw [hact] at this
    simp at this
  have hle0 : ∀ e ∈ E, (e.x0 : WithBot K) ≤ cur := fun e he =>
    le_trans (WithBot.coe_le_coe.2 (ends_between e e.x0 (.inl rfl)).2) (hle e he).2
  have hle1 : ∀ e ∈ E, (e.x1 : WithBot K) ≤ cur := fun e he =>
    le_trans (WithBot.coe_le_coe.2 (ends_between e e.x1 (.inr rfl)).2) (hle e he).2
  have hna : ∀ e ∈ E, act cur e = false := by
    intro e he
    unfold act
    rw [decide_eq_false_iff_not]
    rintro ⟨_, h2⟩
    exact absurd (hle e he).2 (not_le.2 h2)
  have openE : ∀ e ∈ E, s.t.openSegs e.segIdx = if e.connectedBelow = true then [nOf e.segIdx] else [] := by
    intro e he
    rw [L.openE e he, hna e he]
    have : ¬ cur < (e.x0 : WithBot K) := not_lt.2 (hle0 e he)
    simp only [this, hle1 e he, and_false, and_true, if_false, Bool.false_eq_true, List.nil_append]
  have wEndEq : s.winding = wEnd := by
    have h1 : (Eo.filter fun e => decide (cur < (e.x0 : WithBot K))) = [] := by
      rw [List.filter_eq_nil_iff]
      intro e he
      simpa using hle0 e ((hEo e).1 he).1
    have h2 := L.wO
    rw [h1] at h2
    have h3 := above_eq_below single orient hsingle E cur L.cum
    have h4 : (E.map fun e => if act cur e then hcontrib single orient e else 0).sum = 0 := by
      have : (E.map fun e => if act cur e then hcontrib single orient e else 0) = E.map fun _ => (0 : W) := by
        apply List.map_congr_left
        intro e he
        rw [hna e he]; rfl
      rw [this]; simp
    rw [h4, add_zero] at h3
    rw [L.wSum, ← h3]; exact h2
  have wN : WLine s.t.winding m (En.map fun e => nOf e.segIdx) wEnd := by
    have h1 := L.wN
    have h2 : (En.filter fun e => decide ((e.x1 : WithBot K) ≤ cur)) = En := by
      rw [List.filter_eq_self]
      intro e he
      simpa using hle1 e ((hEn e).1 he).1
    rwa [h2, wEndEq] at h1
  obtain ⟨ps, hps, hpy⟩ := L.points_old
  have pts_old : ∀ (p : Nat) (q : K × K), t.points[p]? = some q → s.t.points[p]? = some q := by
    intro p q hp
    rw [hps, List.getElem?_append_left]
    · exact hp
    · rw [List.getElem?_eq_some_iff] at hp; exact hp.1
  have runs_old : ∀ i a b, Runs t i a b → Runs s.t i a b := by
    rintro i a b ⟨p, q, k1, k2, k3, k4⟩
    exact ⟨p, q, L.pidx_old _ _ k1, L.pidx_old _ _ k2, pts_old _ _ k3, pts_old _ _ k4⟩
  have hn := L.n_le
  have horiz_old : ∀ y' e i a b, i < t.n → HorizOf orient t y' e i a b → HorizOf orient s.t y' e i a b := by
    rintro y' e i a b hi ⟨h1, h2, h3, h4, h5, h6⟩
    exact ⟨h1, h2, h3, by rw [L.orig_old i hi]; exact h4, by rw [L.positive_old i hi]; exact h5, runs_old _ _ _ h6⟩
  have west_iff : ∀ i < t.n, (WestOk s.t i ↔ WestOk t i) := by
    intro i hi
    unfold WestOk
    rw [L.winding_old i hi, L.west_old i hi]
    have : eastOf s.t (t.scanWest i) = eastOf t (t.scanWest i) := by
      cases hj : t.scanWest i with
      | none => rfl
      | some j =>
        have := hg.west i hi j hj
        simp only [eastOf]; rw [L.winding_old j (by omega)]
    rw [this]
  have lt_of_open : ∀ a s, a ∈ t.openSegs s → a < t.n := fun a s h => ((hg.openIff a s).1 h).1
  -- points after the old ones are at height y
  have pts_new : ∀ (p : Nat) (a : K × K), s.t.points[p]? = some a → t.points[p]? = some a ∨ a.2 = y := by
    intro p a hp
    rw [hps] at hp
    by_cases hlt : p < t.points.length
    · rw [List.getElem?_append_left hlt] at hp; exact .inl hp
    · rw [List.getElem?_append_right (by omega)] at hp
      exact .inr (hpy a (List.mem_of_getElem? hp))
  -- `Vert` for old output segments
  have vert_back : ∀ y' e i, i < t.n → Vert orient s.t y' e i → Vert orient t y' e i := by
    rintro y' e i hi ⟨h1, h2, h3, h4, ⟨p, k1, k2⟩, h6⟩
    rw [L.orig_old i hi] at h2
    rw [L.positive_old i hi] at h3
    refine ⟨h1, h2, h3, (west_iff i hi).1 h4, ?_, ?_⟩
    · have := hg.firstSome i hi
      rw [Option.isSome_iff_exists] at this
      obtain ⟨p', hp'⟩ := this
      have e1 := L.pidx_old _ _ hp'
      rw [k1] at e1
      have e1 : p = p' := by simpa using e1
      subst e1
      refine ⟨p, hp', ?_⟩
      have := (hg.ptLt _ _ hp').1
      rw [hps, List.getElem?_append_left this] at k2
      exact k2
    · intro q hq
      obtain ⟨b, hb1, hb2⟩ := h6 q (L.pidx_old _ _ hq)
      refine ⟨b, ?_, hb2⟩
      have := (hg.ptLt _ _ hq).1
      rw [hps, List.getElem?_append_left this] at hb1
      exact hb1
  have vert_keep : ∀ y' e i, i < t.n → Vert orient t y' e i → (t.pointIdx ⟨i, false⟩ = none → y' < y) →
      Vert orient s.t y' e i := by
    rintro y' e i hi ⟨h1, h2, h3, h4, ⟨p, k1, k2⟩, h6⟩ hlt
    refine ⟨h1, by rw [L.orig_old i hi]; exact h2, by rw [L.positive_old i hi]; exact h3, (west_iff i hi).2 h4,
      ⟨p, L.pidx_old _ _ k1, pts_old _ _ k2⟩, ?_⟩
    intro q hq
    cases hc : t.pointIdx ⟨i, false⟩ with
    | some q' =>
      have e1 := L.pidx_old _ _ hc
      rw [hq] at e1
      have e1 : q = q' := by simpa using e1
      subst e1
      obtain ⟨b, hb1, hb2⟩ := h6 q hc
      exact ⟨b, pts_old _ _ hb1, hb2⟩
    | none =>
      have hq1 := (L.good.ptLt _ _ hq).1
      refine ⟨s.t.points[q], List.getElem?_eq_getElem hq1, ?_⟩
      -- closed in this range: find the event
      have hop := (hg.openIff i (t.origSeg i)).2 ⟨hi, rfl, hc⟩
      by_cases hl : t.origSeg i ∈ A ++ Eo.map OutputEvent.segIdx ++ B
      · obtain ⟨o, _, _, _, ho, _⟩ := hinv.openIn _ hl
        have hio : i = o := by rw [ho] at hop; simpa using hop
        by_cases hAB : t.origSeg i ∈ A ∨ t.origSeg i ∈ B
        · have := L.openOther _ (notE _ hAB)
          rw [← this] at hop
          have := ((L.good.openIff _ _).1 hop).2.2
          rw [hq] at this; simp at this
        · have : t.origSeg i ∈ Eo.map OutputEvent.segIdx := by
            simp only [List.mem_append] at hl; tauto
          obtain ⟨e', he', hs'⟩ := List.mem_map.1 this
          have he'' := (hEo e').1 he'
          obtain ⟨q', hq', hb'⟩ := L.closed_o e' he''.1 he''.2 (hle0 e' he''.1)
          rw [hs', ho] at hq'
          have hq' : s.t.pointIdx ⟨o, false⟩ = some q' := hq'
          rw [← hio, hq] at hq'
          have : q = q' := by simpa using hq'
          subst this
          rw [List.getElem?_eq_getElem hq1] at hb'
          have : s.t.points[q] = (e'.x0, y) := by simpa using hb'
          rw [this]; exact hlt hc
      · have := (hinv.openOut _ hl).1
        rw [this] at hop; simp at hop
  -- histories
  have evsOther : ∀ a, (∀ e ∈ E, e.segIdx ≠ a) → evs (hist ++ E.map fun e => (y, e)) a = evs hist a := by
    intro a ha
    rw [evs_append, evs_none E y a ha, List.append_nil]
  have evsE : ∀ e ∈ E, evs (hist ++ E.map fun e => (y, e)) e.segIdx = evs hist e.segIdx ++ [(y, e)] := by
    intro e he
    rw [evs_append, evs_one E y hnd e he]
  -- the fate of an old output segment
  have notDone : ∀ y' e i, i < t.n → Vert orient t y' e i → (y', e) ∈ hist →
      t.pointIdx ⟨i, false⟩ = none → y' < y ∨ s.t.pointIdx ⟨i, false⟩ = none := by
    intro y' e i hi hv hmem hc
    have hs := hv.2.1
    have hop := (hg.openIff i (t.origSeg i)).2 ⟨hi, rfl, hc⟩
    by_cases hE : ∃ e' ∈ E, e'.segIdx = t.origSeg i
    · obtain ⟨e', he', hs'⟩ := hE
      left
      exact H.once (y', e) hmem e' he' (by rw [hs', ← hs])
    · right
      have : ∀ e' ∈ E, e'.segIdx ≠ t.origSeg i := fun e' he' hh => hE ⟨e', he', hh⟩
      rw [← L.openOther _ this] at hop
      exact ((L.good.openIff _ _).1 hop).2.2
  have vert_keep' : ∀ y' e i, i < t.n → Vert orient t y' e i → (y', e) ∈ hist → Vert orient s.t y' e i := by
    intro y' e i hi hv hmem
    by_cases hlt : y' < y
    · exact vert_keep y' e i hi hv (fun _ => hlt)
    · by_cases hc : t.pointIdx ⟨i, false⟩ = none
      · rcases notDone y' e i hi hv hmem hc with h | h
        · exact absurd h hlt
        · obtain ⟨h1, h2, h3, h4, ⟨p, k1, k2⟩, h6⟩ := hv
          refine ⟨h1, by rw [L.orig_old i hi]; exact h2, by rw [L.positive_old i hi]; exact h3, (west_iff i hi).2 h4,
            ⟨p, L.pidx_old _ _ k1, pts_old _ _ k2⟩, ?_⟩
          intro q hq; rw [h] at hq; simp at hq
      · exact vert_keep y' e i hi hv (fun h => absurd h hc)
  -- new verticals
  have vert_new : ∀ e ∈ E, e.connectedBelow = true → nOf e.segIdx < s.t.n ∧ t.n ≤ nOf e.segIdx ∧
      s.t.openSegs e.segIdx = [nOf e.segIdx] ∧ Vert orient s.t y e (nOf e.segIdx) := by
    intro e he hb
    obtain ⟨k1, k2, k3, k4, p, k5, k6⟩ := L.new_n e he hb (hle1 e he)
    have ho := openE e he
    rw [if_pos hb] at ho
    have hoi := (L.good.openIff (nOf e.segIdx) e.segIdx).1 (by rw [ho]; simp)
    refine ⟨k2, k1, ho, hb, hoi.2.1, k3, k4, ⟨p, k5, k6⟩, ?_⟩
    intro q hq
    rw [hoi.2.2] at hq; simp at hq
  have kinds : ∀ i, t.n ≤ i → i < s.t.n →
      (∃ e ∈ E, e.connectedBelow = true ∧ i = nOf e.segIdx) ∨ ∃ e ∈ E, ∃ a b, HorizOf orient s.t y e i a b := by
    intro i h1 h2
    rcases L.kinds i h1 h2 with ⟨e, he, hb, _, hi⟩ | ⟨e, he, a, b, hh⟩ | ⟨e, he, ha, _⟩
    · exact .inl ⟨e, he, hb, hi⟩
    · exact .inr ⟨e, he, a, b, hh⟩
    · rw [hna e he] at ha; simp at ha
  have horiz_not_vert : ∀ (t : Topo K W) y1 e1 i a b y2 e2, HorizOf orient t y1 e1 i a b → ¬ Vert orient t y2 e2 i := by
    rintro t y1 e1 i a b y2 e2 ⟨_, _, _, _, _, p, q, k1, k2, k3, k4⟩ ⟨_, _, _, _, ⟨p', k5, k6⟩, k7⟩
    rw [k1] at k5
    have : p = p' := by simpa using k5
    subst this
    rw [k3] at k6
    have e1 : y1 = y2 := by simp at k6; exact k6.2
    obtain ⟨b', hb1, hb2⟩ := k7 q k2
    rw [k4] at hb1
    have : b' = (b, y1) := by simpa using hb1.symm
    rw [this, e1] at hb2
    exact lt_irrefl _ hb2
  -- the event at which an old vertical starts
  have vert_hist : ∀ y' e i, i < t.n → Vert orient t y' e i → ∃ e', (y', e') ∈ hist ∧ e'.segIdx = e.segIdx := by
    intro y' e i hi hv
    have same : ∀ y1 e1, Vert orient t y1 e1 i → y1 = y' ∧ e1.segIdx = e.segIdx := by
      intro y1 e1 hv1
      obtain ⟨p, k1, k2⟩ := hv.2.2.2.2.1
      obtain ⟨p', k3, k4⟩ := hv1.2.2.2.2.1
      rw [k1] at k3
      have : p = p' := by simpa using k3
      subst this
      rw [k2] at k4
      simp at k4
      exact ⟨k4.2.symm, by rw [← hv1.2.1, hv.2.1]⟩
    by_cases hc : t.pointIdx ⟨i, false⟩ = none
    · have hop := (hg.openIff i (t.origSeg i)).2 ⟨hi, rfl, hc⟩
      by_cases hl : t.origSeg i ∈ A ++ Eo.map OutputEvent.segIdx ++ B
      · obtain ⟨o, y0, e0, l, ho, hev0, hv0⟩ := hinv.openIn _ hl
        have hio : i = o := by rw [ho] at hop; simpa using hop
        subst hio
        obtain ⟨r1, r2⟩ := same y0 e0 hv0
        subst r1
        exact ⟨e0, (evsSeg _ (y0, e0) (by rw [hev0]; simp)).1, r2⟩
      · have := (hinv.openOut _ hl).1
        rw [this] at hop; simp at hop
    · rcases hinv.closed i hi hc with ⟨y1, e1, a, b, hm1, hh⟩ | ⟨l, y1, e1, y2, e2, l', hev1, hv1, _⟩
      · exact absurd hv (horiz_not_vert t y1 e1 i a b y' e hh)
      · obtain ⟨r1, r2⟩ := same y1 e1 hv1
        subst r1
        exact ⟨e1, (evsSeg _ (y1, e1) (by rw [hev1]; simp)).1, r2⟩
  refine ⟨?_, ?_, nOf, ?_⟩
  rotate_left
  · intro hl
    cases hEn' : En with
    | nil => rfl
    | cons e l =>
      have hmem : e ∈ En := by rw [hEn']; simp
      have := L.lastDown hl e hmem
      exact absurd (hle1 e ((hEn e).1 hmem).1) (not_le.2 this)
  · have hfil : (En.filter fun e => decide ((e.x1 : WithBot K) ≤ cur)) = En := by
      rw [List.filter_eq_self]
      intro e he
      simpa using hle1 e ((hEn e).1 he).1
    refine ⟨hn, L.pidx_old, L.points_old, L.west_old, L.orig_old, L.winding_old, L.eastO, L.eastN, L.afterO, fun a ha => L.openOther a (notE a ha), ?_, ?_, ?_, ?_, ?_, ?_⟩
    · intro e he
      obtain ⟨h1, h2, h3, h4⟩ := vert_new e ((hEn e).1 he).1 ((hEn e).1 he).2
      exact ⟨h3, h2, h1, h4.2.2.2.2.1⟩
    · have := L.westN
      rw [hfil] at this; exact this
    · have := L.lastN
      rw [hfil] at this; exact this
    · intro i h1 h2
      rcases kinds i h1 h2 with ⟨e, he, hb, hi⟩ | ⟨e, _, a, b, hh⟩
      · exact .inl ⟨e, (hEn e).2 ⟨he, hb⟩, hi⟩
      · exact .inr ⟨a, b, hh.2.2.2.2.2⟩
    · rintro i hi hc a b ⟨p, q, k1, k2, k3, k4⟩
      have hop := (hg.openIff i (t.origSeg i)).2 ⟨hi, rfl, hc⟩
      by_cases hl : t.origSeg i ∈ A ++ Eo.map OutputEvent.segIdx ++ B
      · obtain ⟨o, y0, e0, l, ho, hev0, hv0⟩ := hinv.openIn _ hl
        have hio : i = o := by rw [ho] at hop; simpa using hop
        subst hio
        have hv := vert_keep' y0 e0 i hi hv0 (evsSeg _ (y0, e0) (by rw [hev0]; simp)).1
        obtain ⟨p', m1, m2⟩ := hv.2.2.2.2.1
        obtain ⟨b', m3, m4⟩ := hv.2.2.2.2.2 q k2
        rw [k1] at m1
        have : p = p' := by simpa using m1
        subst this
        rw [k3] at m2
        rw [k4] at m3
        have e1 : a = (e0.x1, y0) := by simpa using m2
        have e2 : b = b' := by simpa using m3
        rw [e1, e2]; exact ne_of_lt m4
      · have := (hinv.openOut _ hl).1
        rw [this] at hop; simp at hop
    · intro e he
      exact L.closed_o e ((hEo e).1 he).1 ((hEo e).1 he).2 (hle0 e ((hEo e).1 he).1)
  constructor
  case good => exact L.good
  case nodup =>
    rw [List.append_assoc, List.nodup_append, List.nodup_append]
    have ndEn : (En.map OutputEvent.segIdx).Nodup := by
      rw [(hspec.news.map _).nodup_iff]; exact ((List.filter_sublist).map _).nodup hnd
    refine ⟨ndA, ⟨ndEn, ndB, ?_⟩, ?_⟩
    · intro a ha b hb hab
      obtain ⟨e, he, rfl⟩ := List.mem_map.1 ha
      exact notE b (.inr hb) e ((hEn e).1 he).1 hab
    · intro a ha b hb hab
      rcases List.mem_append.1 hb with hb | hb
      · obtain ⟨e, he, rfl⟩ := List.mem_map.1 hb
        exact notE a (.inl ha) e ((hEn e).1 he).1 hab.symm
      · exact dAEB a ha b (List.mem_append.2 (.inr hb)) hab
  case openIn =>
    intro a ha
    simp only [List.mem_append] at ha
    by_cases hAB : a ∈ A ∨ a ∈ B
    · obtain ⟨o, y0, e0, l, h1, h2, h3⟩ := hinv.openIn a (by simp only [List.mem_append]; tauto)
      have hne := notE a hAB
      refine ⟨o, y0, e0, l, by rw [L.openOther a hne]; exact h1, by rw [evsOther a hne]; exact h2, ?_⟩
      exact vert_keep' y0 e0 o (lt_of_open o a (by rw [h1]; simp)) h3 (evsSeg a _ (by rw [h2]; simp)).1
    · have : a ∈ En.map OutputEvent.segIdx := by tauto
      obtain ⟨e, he, rfl⟩ := List.mem_map.1 this
      have he' := (hEn e).1 he
      obtain ⟨k1, k2, k3, k4⟩ := vert_new e he'.1 he'.2
      exact ⟨nOf e.segIdx, y, e, evs hist e.segIdx, k3, evsE e he'.1, k4⟩
  case openOut =>
    intro a ha
    simp only [List.mem_append, not_or] at ha
    by_cases hE : ∃ e ∈ E, e.segIdx = a
    · obtain ⟨e, he, rfl⟩ := hE
      have hb : e.connectedBelow = false := by
        cases hb : e.connectedBelow with
        | false => rfl
        | true => exact absurd (List.mem_map_of_mem ((hEn e).2 ⟨he, hb⟩)) ha.1.2
      refine ⟨by rw [openE e he, hb]; rfl, ?_⟩
      intro p hp
      rw [evsE e he] at hp
      simp at hp
      rw [← hp]; exact hb
    · have hne : ∀ e ∈ E, e.segIdx ≠ a := fun e he hh => hE ⟨e, he, hh⟩
      have hno : a ∉ A ++ Eo.map OutputEvent.segIdx ++ B := by
        simp only [List.mem_append]
        rintro ((h | h) | h)
        · exact ha.1.1 h
        · obtain ⟨e, he, hs⟩ := List.mem_map.1 h
          exact hne e ((hEo e).1 he).1 hs
        · exact ha.2 h
      rw [L.openOther a hne, evsOther a hne]
      exact hinv.openOut a hno
  case walk =>
    rw [List.append_assoc, List.map_append, List.map_append]
    have keep : ∀ l : List Nat, (∀ a ∈ l, a ∈ A ∨ a ∈ B) → ∀ u v, WLine t.winding u (l.map fun a => (t.openSegs a).headD 0) v →
        WLine s.t.winding u (l.map fun a => (s.t.openSegs a).headD 0) v := by
      intro l hl u v h
      have : (l.map fun a => (s.t.openSegs a).headD 0) = l.map fun a => (t.openSegs a).headD 0 := by
        apply List.map_congr_left
        intro a ha
        rw [L.openOther a (notE a (hl a ha))]
      rw [this]
      refine h.congr ?_
      intro i hi
      obtain ⟨a, ha, rfl⟩ := List.mem_map.1 hi
      have hAB := hl a ha
      obtain ⟨o, _, _, _, ho, _⟩ := hinv.openIn a (by simp only [List.mem_append]; tauto)
      have : o < t.n := lt_of_open o a (by rw [ho]; simp)
      rw [ho]; exact L.winding_old o this
    refine (keep A (fun a h => .inl h) _ _ wA).append (WLine.append ?_ (keep B (fun a h => .inr h) _ _ wB))
    rw [List.map_map]
    have : (En.map ((fun a => (s.t.openSegs a).headD 0) ∘ OutputEvent.segIdx)) = En.map fun e => nOf e.segIdx := by
      apply List.map_congr_left
      intro e he
      have he' := (hEn e).1 he
      simp only [Function.comp_apply]
      rw [openE e he'.1, if_pos he'.2]; rfl
    rw [this]; exact wN
  case closed =>
    intro i hi hc
    by_cases hlt : i < t.n
    · by_cases hc0 : t.pointIdx ⟨i, false⟩ = none
      · -- closed in this range
        have hop := (hg.openIff i (t.origSeg i)).2 ⟨hlt, rfl, hc0⟩
        have hE : ∃ e ∈ E, e.segIdx = t.origSeg i := by
          by_contra hE
          have hne : ∀ e' ∈ E, e'.segIdx ≠ t.origSeg i := fun e' he' hh => hE ⟨e', he', hh⟩
          rw [← L.openOther _ hne] at hop
          exact hc ((L.good.openIff _ _).1 hop).2.2
        obtain ⟨e, he, hs⟩ := hE
        have ha : e.connectedAbove = true := by
          by_contra ha
          have := (hinv.openOut _ (H.fresh e he (by simpa using ha))).1
          rw [hs] at this; rw [this] at hop; simp at hop
        obtain ⟨o, y0, e0, l, h1, h2, h3⟩ := openO e he ha
        rw [hs] at h1
        have hio : i = o := by rw [h1] at hop; simpa using hop
        subst hio
        right
        obtain ⟨q, hq1, hq2⟩ := L.closed_o e he ha (hle0 e he)
        rw [hs, h1] at hq1
        obtain ⟨p, k1, k2⟩ := h3.2.2.2.2.1
        refine ⟨l, y0, e0, y, e, [], ?_, vert_keep' y0 e0 i hlt h3 (evsSeg e.segIdx _ (by rw [h2]; simp)).1, ha,
          p, q, L.pidx_old _ _ k1, hq1, pts_old _ _ k2, hq2⟩
        rw [L.orig_old i hlt, ← hs, evsE e he, h2]; simp
      · rcases hinv.closed i hlt hc0 with ⟨y1, e1, a, b, hm1, hh⟩ | ⟨l, y1, e1, y2, e2, l', hev1, hv1, ha2, hr⟩
        · left
          exact ⟨y1, e1, a, b, List.mem_append.2 (.inl hm1), horiz_old y1 e1 i a b hlt hh⟩
        · right
          refine ⟨l, y1, e1, y2, e2, l' ++ evs (E.map fun e => (y, e)) (t.origSeg i), ?_,
            vert_keep' y1 e1 i hlt hv1 (evsSeg _ (y1, e1) (by rw [hev1]; simp)).1, ha2, runs_old _ _ _ hr⟩
          rw [L.orig_old i hlt, evs_append, hev1]; simp
    · rcases kinds i (by omega) hi with ⟨e, he, hb, rfl⟩ | ⟨e, he, a, b, hh⟩
      · obtain ⟨_, _, k3, _⟩ := vert_new e he hb
        exact absurd ((L.good.openIff (nOf e.segIdx) e.segIdx).1 (by rw [k3]; simp)).2.2 hc
      · left
        exact ⟨y, e, a, b, List.mem_append.2 (.inr (List.mem_map.2 ⟨e, he, rfl⟩)), hh⟩
  case traced =>
    intro a l y1 e1 y2 e2 l' hev1 hb
    by_cases hE : ∃ e ∈ E, e.segIdx = a
    · obtain ⟨e, he, rfl⟩ := hE
      rw [evsE e he] at hev1
      rcases concat_split hev1 with ⟨hl', heq, hold⟩ | ⟨l'', hl', hold⟩
      · -- the new event closes
        have hy2 : y2 = y ∧ e2 = e := by
          have := heq; simp only [Prod.mk.injEq] at this; exact this
        obtain ⟨rfl, rfl⟩ := hy2
        have hin : e2.segIdx ∈ A ++ Eo.map OutputEvent.segIdx ++ B := by
          by_contra hno
          have := (hinv.openOut _ hno).2 (y1, e1) (by rw [hold]; simp)
          rw [hb] at this; simp at this
        have ha : e2.connectedAbove = true := by
          by_contra ha
          exact H.fresh e2 he (by simpa using ha) hin
        obtain ⟨o, y0, e0, l0, h1, h2, h3⟩ := openO e2 he ha
        have heq2 : y0 = y1 ∧ e0 = e1 := by
          rw [hold] at h2
          have := (List.append_inj' h2 rfl).2
          simp only [List.cons.injEq, Prod.mk.injEq, and_true] at this
          exact ⟨this.1.symm, this.2.symm⟩
        obtain ⟨rfl, rfl⟩ := heq2
        have ho : o < t.n := lt_of_open o _ (by rw [h1]; simp)
        obtain ⟨q, hq1, hq2⟩ := L.closed_o e2 he ha (hle0 e2 he)
        rw [h1] at hq1
        obtain ⟨p, k1, k2⟩ := h3.2.2.2.2.1
        exact ⟨o, by omega, vert_keep' y0 e0 o ho h3 (evsSeg _ (y0, e0) (by rw [h2]; simp)).1,
          p, q, L.pidx_old _ _ k1, hq1, pts_old _ _ k2, hq2⟩
      · obtain ⟨i, hi, hv, hr⟩ := hinv.traced _ _ _ _ _ _ _ hold hb
        exact ⟨i, by omega, vert_keep' y1 e1 i hi hv (evsSeg _ (y1, e1) (by rw [hold]; simp)).1, runs_old _ _ _ hr⟩
    · have hne : ∀ e ∈ E, e.segIdx ≠ a := fun e he hh => hE ⟨e, he, hh⟩
      rw [evsOther a hne] at hev1
      obtain ⟨i, hi, hv, hr⟩ := hinv.traced _ _ _ _ _ _ _ hev1 hb
      exact ⟨i, by omega, vert_keep' y1 e1 i hi hv (evsSeg _ (y1, e1) (by rw [hev1]; simp)).1, runs_old _ _ _ hr⟩
  case cover =>
    intro y1 e1 hm z z1 z2
    rcases List.mem_append.1 hm with hm | hm
    · obtain ⟨i, a, b, h1, h2, h3, h4⟩ := hinv.cover y1 e1 hm z z1 z2
      exact ⟨i, a, b, by omega, h2, h3, horiz_old y1 e1 i a b h1 h4⟩
    · obtain ⟨e, he, heq⟩ := List.mem_map.1 hm
      simp only [Prod.mk.injEq] at heq
      obtain ⟨rfl, rfl⟩ := heq
      obtain ⟨i, a, b, _, h1, h2, h3, h4⟩ := L.cover e he z z1 z2
        (lt_of_lt_of_le (WithBot.coe_lt_coe.2 z2) (hle e he).2)
      exact ⟨i, a, b, h1, h2, h3, h4⟩
  case uniq =>
    have mixed : ∀ y' e i i', i < t.n → t.n ≤ i' → i' < s.t.n → Vert orient s.t y' e i → Vert orient s.t y' e i' → False := by
      intro y' e i i' h1 h2 h3 v1 v2
      rcases kinds i' h2 h3 with ⟨e2, he2, hb2, rfl⟩ | ⟨e2, he2, a, b, hh⟩
      · obtain ⟨_, _, _, k4⟩ := vert_new e2 he2 hb2
        have hy : y' = y := by
          obtain ⟨p, q1, q2⟩ := k4.2.2.2.2.1
          obtain ⟨p', q3, q4⟩ := v2.2.2.2.2.1
          rw [q1] at q3
          have : p = p' := by simpa using q3
          subst this
          rw [q2] at q4
          simp at q4; exact q4.2.symm
        subst hy
        obtain ⟨e', hm', hs'⟩ := vert_hist y' e i h1 (vert_back y' e i h1 v1)
        have : e2.segIdx = e.segIdx := by rw [← k4.2.1, v2.2.1]
        exact absurd (H.once (y', e') hm' e2 he2 (by rw [this]; exact hs')) (lt_irrefl _)
      · exact horiz_not_vert s.t y e2 i' a b y' e hh v2
    intro y' e i i' h1 h2 v1 v2
    by_cases q1 : i < t.n <;> by_cases q2 : i' < t.n
    · exact hinv.uniq y' e i i' q1 q2 (vert_back _ _ _ q1 v1) (vert_back _ _ _ q2 v2)
    · exact (mixed y' e i i' q1 (by omega) h2 v1 v2).elim
    · exact (mixed y' e i' i q2 (by omega) h1 v2 v1).elim
    · rcases kinds i (by omega) h1 with ⟨e1, he1, hb1, rfl⟩ | ⟨e1, he1, a, b, hh⟩
      · rcases kinds i' (by omega) h2 with ⟨e2, he2, hb2, rfl⟩ | ⟨e2, he2, a, b, hh⟩
        · have k1 := (vert_new e1 he1 hb1).2.2.2.2.1
          have k2 := (vert_new e2 he2 hb2).2.2.2.2.1
          have : e1.segIdx = e2.segIdx := by rw [← k1, ← k2, v1.2.1, v2.2.1]
          rw [this]
        · exact absurd v2 (horiz_not_vert s.t y e2 _ a b y' e hh)
      · exact absurd v1 (horiz_not_vert s.t y e1 _ a b y' e hh)
  case heights =>
    intro a ha
    rw [hps] at ha
    rcases List.mem_append.1 ha with ha | ha
    · obtain ⟨q, hq, hq2⟩ := hinv.heights a ha
      exact ⟨q, List.mem_append.2 (.inl hq), hq2⟩
    · have hy := hpy a ha
      -- some event exists, otherwise no points are produced
      cases hE : E with
      | nil =>
        exfalso
        have hnil : processLoop single orient y ⟨t, SLRange.new E, m, sw, none⟩ =
            some ⟨t, SLRange.new E, m, sw, none⟩ := by
          rw [processLoop_eq, hE]; rfl
        rw [hnil] at hrun
        have : s.t = t := by
          have := Option.some.inj hrun
          rw [← this]
        rw [this] at hps
        have : ps = [] := by
          have := congrArg List.length hps
          simp at this; exact this
        rw [this] at ha; simp at ha
      | cons e l =>
        exact ⟨(y, e), by simp, hy.symm⟩
  case mono =>
    rw [hps, List.pairwise_append]
    refine ⟨hinv.mono, ?_, ?_⟩
    · apply List.pairwise_of_forall_mem_list
      intro a ha b hb
      rw [hpy a ha, hpy b hb]
    · intro a ha b hb
      obtain ⟨q, hq, hq2⟩ := hinv.heights a ha
      rw [hpy b hb, ← hq2]
      exact H.down q hq
  case shape =>
    obtain ⟨B', h1, h2, _⟩ := L.shape
    exact ⟨B', h1, by rw [← h2, hact]; rfl⟩
  case adj =>
    have hNall : (En.filter fun e => decide ((e.x1 : WithBot K) ≤ cur)) = En := by
      rw [List.filter_eq_self]
      intro e he
      simpa using hle1 e ((hEn e).1 he).1
    have westN := L.westN
    rw [hNall] at westN
    have hswO : ∀ c, sw = some c → ∃ a, A.getLast? = some a ∧ t.openSegs a = [c] ∧ t.origSeg c = a := by
      intro c hc
      rw [hsw, Option.bind_eq_some_iff] at hc
      obtain ⟨a, h1, h2⟩ := hc
      obtain ⟨o, _, _, _, ho, _⟩ := hinv.openIn a (by
        have := List.mem_of_getLast? h1
        simp only [List.mem_append]; tauto)
      rw [ho] at h2
      have : o = c := by simpa using h2
      subst this
      exact ⟨a, h1, ho, ((hg.openIff _ _).1 (by rw [ho]; simp)).2.1⟩
    have origN : ∀ e ∈ En, s.t.origSeg (nOf e.segIdx) = e.segIdx := by
      intro e he
      have he' := (hEn e).1 he
      exact (vert_new e he'.1 he'.2).2.2.2.2.1
    intro i c hi hw huq hnh
    by_cases hlt : i < t.n
    · rw [L.west_old i hlt] at hw
      have hclt : c < t.n := by have := hg.west i hlt c hw; omega
      have ih := hinv.adj i c hlt hw
        (fun j hj hjc hjh => huq j (by omega) (by rw [L.west_old j hj]; exact hjc) (by
          intro a b hr hab
          cases hc : t.pointIdx ⟨j, false⟩ with
          | none =>
            have hop := (hg.openIff j (t.origSeg j)).2 ⟨hj, rfl, hc⟩
            by_cases hl : t.origSeg j ∈ A ++ Eo.map OutputEvent.segIdx ++ B
            · obtain ⟨o, y1, e1, l1, ho, hev, hv⟩ := hinv.openIn _ hl
              have hio : j = o := by rw [ho] at hop; simpa using hop
              subst hio
              have hm : (y1, e1) ∈ evs hist (t.origSeg j) := by rw [hev]; simp
              obtain ⟨_, _, _, _, ⟨p1, v1, v2⟩, v3⟩ := vert_keep' y1 e1 j hj hv (evsSeg _ (y1, e1) hm).1
              obtain ⟨p, q, r1, r2, r3, r4⟩ := hr
              obtain ⟨b', v4, v5⟩ := v3 q r2
              rw [v1, Option.some.injEq] at r1
              subst r1
              rw [v2, Option.some.injEq] at r3
              rw [v4, Option.some.injEq] at r4
              subst r3 r4
              exact absurd hab v5.ne
            · rw [(hinv.openOut _ hl).1] at hop; simp at hop
          | some q =>
            obtain ⟨a', b', hr'⟩ : ∃ a' b', Runs t j a' b' := by
              rcases hinv.closed j hj (by rw [hc]; simp) with ⟨_, _, _, _, _, hh⟩ | ⟨_, _, _, _, _, _, _, _, _, hh⟩
              · exact ⟨_, _, hh.2.2.2.2.2⟩
              · exact ⟨_, _, hh⟩
            obtain ⟨p, q, r1, r2, r3, r4⟩ := hr
            obtain ⟨p', q', m1, m2, m3, m4⟩ := runs_old _ _ _ hr'
            rw [r1, Option.some.injEq] at m1
            rw [r2, Option.some.injEq] at m2
            subst m1 m2
            rw [r3, Option.some.injEq] at m3
            rw [r4, Option.some.injEq] at m4
            subst m3 m4
            exact hjh _ _ hr' hab))
        (fun a b hr => hnh a b (runs_old _ _ _ hr))
      rw [L.orig_old i hlt, L.orig_old c hclt]
      -- where open old segments are
      have opn : ∀ j, j < t.n → t.pointIdx ⟨j, false⟩ = none → t.origSeg j ∈ A ++ Eo.map OutputEvent.segIdx ++ B ∧
          t.openSegs (t.origSeg j) = [j] := by
        intro j hj hc
        have hop := (hg.openIff j (t.origSeg j)).2 ⟨hj, rfl, hc⟩
        by_cases hl : t.origSeg j ∈ A ++ Eo.map OutputEvent.segIdx ++ B
        · obtain ⟨o, _, _, _, ho, _⟩ := hinv.openIn _ hl
          have hio : j = o := by rw [ho] at hop; simpa using hop
          exact ⟨hl, by rw [ho, hio]⟩
        · rw [(hinv.openOut _ hl).1] at hop; simp at hop
      have back : ∀ h : Half, s.t.pointIdx h = none → t.pointIdx h = none := by
        intro h hn
        cases hc : t.pointIdx h with
        | none => rfl
        | some q => rw [L.pidx_old _ _ hc] at hn; simp at hn
      -- an old segment that is open on the line closes in this range iff it is in `Eo`
      have inE : ∀ j, j < t.n → t.pointIdx ⟨j, false⟩ = none → t.origSeg j ∈ Eo.map OutputEvent.segIdx →
          ∃ e ∈ Eo, e.segIdx = t.origSeg j ∧ ∃ q, s.t.pointIdx ⟨j, false⟩ = some q ∧ s.t.points[q]? = some (e.x0, y) := by
        intro j hj hc hm
        obtain ⟨e, he, hs⟩ := List.mem_map.1 hm
        have he' := (hEo e).1 he
        obtain ⟨q, k1, k2⟩ := L.closed_o e he'.1 he'.2 (hle0 e he'.1)
        rw [hs, (opn j hj hc).2] at k1
        exact ⟨e, he, hs, q, k1, k2⟩
      have outE : ∀ j, j < t.n → t.pointIdx ⟨j, false⟩ = none → (t.origSeg j ∈ A ∨ t.origSeg j ∈ B) →
          s.t.pointIdx ⟨j, false⟩ = none := by
        intro j hj hc hm
        have hop := (hg.openIff j (t.origSeg j)).2 ⟨hj, rfl, hc⟩
        rw [← L.openOther _ (notE _ hm)] at hop
        exact ((L.good.openIff _ _).1 hop).2.2
      refine ⟨?_, ?_⟩
      · intro hc1 hc2
        have b1 := back _ hc1
        have b2 := back _ hc2
        have hcon := ih.1 b1 b2
        have n1 : t.origSeg c ∉ Eo.map OutputEvent.segIdx := by
          intro hm
          obtain ⟨_, _, _, q, k1, _⟩ := inE c hclt b1 hm
          rw [hc1] at k1; simp at k1
        have n2 : t.origSeg i ∉ Eo.map OutputEvent.segIdx := by
          intro hm
          obtain ⟨_, _, _, q, k1, _⟩ := inE i hlt b2 hm
          rw [hc2] at k1; simp at k1
        rw [List.append_assoc, consec_append, consec_append] at hcon
        rw [List.append_assoc, consec_append, consec_append]
        rcases hcon with h | ⟨h1, h2⟩ | h | ⟨h1, h2⟩ | h
        · exact .inl h
        · right; left
          have hEoNil : Eo.map OutputEvent.segIdx = [] := by
            cases hq : Eo.map OutputEvent.segIdx with
            | nil => rfl
            | cons b l =>
              rw [hq] at h2
              have : b = t.origSeg i := by simpa using h2
              rw [hq, this] at n2; simp at n2
          have hEnNil : En = [] := by
            cases hq : En with
            | nil => rfl
            | cons e l =>
              exfalso
              have hw1 := westN [] (nOf e.segIdx) (l.map fun e => nOf e.segIdx) (by rw [hq]; rfl)
              have hsc : sw = some c := by
                rw [hsw, h1]
                simp only [Option.bind_some]
                rw [(opn c hclt b1).2]; rfl
              rw [hsc] at hw1
              have hmem : e ∈ En := by rw [hq]; simp
              have he' := (hEn e).1 hmem
              obtain ⟨k1, k2, k3, _⟩ := vert_new e he'.1 he'.2
              have hnone : s.t.pointIdx ⟨nOf e.segIdx, false⟩ = none :=
                ((L.good.openIff (nOf e.segIdx) e.segIdx).1 (by rw [k3]; simp)).2.2
              have := huq _ k1 (by simpa using hw1) (by rintro a b ⟨_, q, _, r2, _⟩; rw [hnone] at r2; simp at r2)
              omega
          rw [hEoNil] at h2
          exact ⟨h1, by rw [hEnNil]; exact h2⟩
        · exact absurd h.mem.1 n1
        · exact absurd (List.mem_of_getLast? h1) n1
        · exact .inr (.inr (.inr (.inr h)))
      · intro q hq1 hq2
        by_cases b1 : t.pointIdx ⟨c, false⟩ = none
        · have hql : t.points.length ≤ q := by
            rcases L.pidx_new _ _ hq1 with h | h
            · rw [b1] at h; simp at h
            · exact h
          have b2 : t.pointIdx ⟨i, false⟩ = none := by
            by_contra b2
            obtain ⟨q'', hq''⟩ := Option.ne_none_iff_exists'.1 b2
            have e2 := L.pidx_old _ _ hq''
            rw [hq2] at e2
            have e2 : q = q'' := by simpa using e2
            subst e2
            have := (hg.ptLt _ _ hq'').1
            omega
          have mem : ∀ j, j < t.n → t.pointIdx ⟨j, false⟩ = none → s.t.pointIdx ⟨j, false⟩ = some q →
              t.origSeg j ∈ Eo.map OutputEvent.segIdx := by
            intro j hj hc hq
            by_contra hm
            have h1 := (opn j hj hc).1
            simp only [List.mem_append] at h1
            have h2 := outE j hj hc (by tauto)
            rw [hq] at h2; simp at h2
          have m1 := mem c hclt b1 hq1
          have m2 := mem i hlt b2 hq2
          have hcon := ih.1 b1 b2
          have notA : ∀ j, j ∈ Eo.map OutputEvent.segIdx → j ∉ A := fun j h1 h2 =>
            dAEB j h2 j (List.mem_append.2 (.inl h1)) rfl
          have notB : ∀ j, j ∈ Eo.map OutputEvent.segIdx → j ∉ B := fun j h1 h2 => dEB j h1 j h2 rfl
          rw [List.append_assoc, consec_append, consec_append] at hcon
          rcases hcon with h | ⟨h1, h2⟩ | h | ⟨h1, h2⟩ | h
          · exact absurd h.mem.1 (notA _ m1)
          · exact absurd (List.mem_of_getLast? h1) (notA _ m1)
          · obtain ⟨l1, l2, hsp⟩ := h
            obtain ⟨f1, r1, g1, g2, g3⟩ := List.map_eq_append_iff.1 hsp
            obtain ⟨e1, r2, g4, g5, g6⟩ := List.map_eq_cons_iff.1 g3
            obtain ⟨e2, r3, g7, g8, g9⟩ := List.map_eq_cons_iff.1 g6
            subst g4 g7
            have pos : ∀ j e, j < t.n → t.pointIdx ⟨j, false⟩ = none → e ∈ Eo → e.segIdx = t.origSeg j →
                s.t.pointIdx ⟨j, false⟩ = some q → s.t.points[q]? = some (e.x0, y) := by
              intro j e hj hc he hs hq
              obtain ⟨e', he', hs', q', k1, k2⟩ := inE j hj hc (by rw [← hs]; exact List.mem_map_of_mem he)
              have : e' = e := inj_of_nodup _ _ ndEo he' he (by rw [hs', hs])
              subst this
              rw [hq] at k1
              have : q = q' := by simpa using k1
              subst this
              exact k2
            have p1 := pos c e1 hclt b1 (by rw [g1]; simp) g5 hq1
            have p2 := pos i e2 hlt b2 (by rw [g1]; simp) g8 hq2
            rw [p1] at p2
            have hx0 : e1.x0 = e2.x0 := by simp at p2; exact p2
            have := L.adjO f1 e1 e2 r3 g1 hx0 (hle0 e1 ((hEo e1).1 (by rw [g1]; simp)).1)
            rw [g5, g8, (opn c hclt b1).2, (opn i hlt b2).2] at this
            exact this
          · exact absurd (List.mem_of_head? h2) (notB _ m2)
          · exact absurd h.mem.1 (notB _ m1)
        · obtain ⟨q', hq'⟩ := Option.ne_none_iff_exists'.1 b1
          have e1 := L.pidx_old _ _ hq'
          rw [hq1] at e1
          have e1 : q = q' := by simpa using e1
          subst e1
          rw [L.nb_old _ _ hq']
          have hql := (hg.ptLt _ _ hq').1
          by_cases b2 : t.pointIdx ⟨i, false⟩ = none
          · exfalso
            rcases L.pidx_new _ _ hq2 with h | h
            · rw [b2] at h; simp at h
            · omega
          · obtain ⟨q'', hq''⟩ := Option.ne_none_iff_exists'.1 b2
            have e2 := L.pidx_old _ _ hq''
            rw [hq2] at e2
            have e2 : q = q'' := by simpa using e2
            subst e2
            exact ih.2 q hq' hq''
    · rcases kinds i (by omega) hi with ⟨e, he, hb, rfl⟩ | ⟨e, he, a, b, hh⟩
      · obtain ⟨k1, k2, k3, k4⟩ := vert_new e he hb
        have hnone := ((L.good.openIff (nOf e.segIdx) e.segIdx).1 (by rw [k3]; simp)).2.2
        refine ⟨?_, by intro q _ hq2; rw [hnone] at hq2; simp at hq2⟩
        intro _ _
        have hmem : e ∈ En := (hEn e).2 ⟨he, hb⟩
        obtain ⟨l1, l2, hsp⟩ := List.append_of_mem hmem
        have hw1 := westN (l1.map fun e => nOf e.segIdx) (nOf e.segIdx) (l2.map fun e => nOf e.segIdx) (by rw [hsp]; simp)
        rw [hw] at hw1
        rw [origN e hmem, List.append_assoc, consec_append, consec_append]
        rcases List.eq_nil_or_concat l1 with rfl | ⟨l1', e', rfl⟩
        · right; left
          obtain ⟨a, h1, _, h3⟩ := hswO c (by simpa using hw1.symm)
          have hc : c < t.n := hswlt c (by simpa using hw1.symm)
          exact ⟨by rw [L.orig_old c hc, h3]; exact h1, by rw [hsp]; simp⟩
        · right; right; left
          rw [List.concat_eq_append] at hw1 hsp
          have hc : c = nOf e'.segIdx := by simpa using hw1
          rw [hc, origN e' (by rw [hsp]; simp)]
          exact ⟨l1'.map OutputEvent.segIdx, l2.map OutputEvent.segIdx, by rw [hsp]; simp⟩
      · obtain ⟨_, _, _, _, _, hr⟩ := hh
        exact (hnh _ _ hr rfl).elim

end Verif.Topo
