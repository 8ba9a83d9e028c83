import Verif.Range.Props

/-! The segments connected to a position of a range (`update_segments_at_x`), and completeness of the
enumeration of positions. -/

namespace Verif.Range
set_option linter.unusedSectionVars false

variable {K : Type} [LinearOrder K]

theorem gatherActive_eq (x : K) (hs : List (HFrag K))
    (h1 : ∀ h ∈ hs, h.connectedAboveAt x = true → h.oldSweepIdx.isSome)
    (h2 : ∀ h ∈ hs, h.connectedBelowAt x = true → h.sweepIdx.isSome) : ∀ u d,
    gatherActive x hs (u, d) = some
      (u ++ (hs.filter (·.connectedAboveAt x)).map (fun h => (h.seg, h.oldSweepIdx.getD 0)),
       d ++ (hs.filter (·.connectedBelowAt x)).map (fun h => (h.seg, h.sweepIdx.getD 0))) := by
  induction hs with
  | nil => intro u d; simp [gatherActive]
  | cons h hs ih =>
    intro u d
    have ih' := ih (fun a ha => h1 a (List.mem_cons_of_mem _ ha)) (fun a ha => h2 a (List.mem_cons_of_mem _ ha))
    have a1 : pushIf (h.connectedAboveAt x) h.seg h.oldSweepIdx u = some (u ++
        ([h].filter (·.connectedAboveAt x)).map (fun h => (h.seg, h.oldSweepIdx.getD 0))) := by
      by_cases c : h.connectedAboveAt x = true
      · obtain ⟨i, hi⟩ := Option.isSome_iff_exists.1 (h1 h (List.mem_cons_self ..) c)
        simp [pushIf, c, hi]
      · simp [pushIf, c]
    have a2 : pushIf (h.connectedBelowAt x) h.seg h.sweepIdx d = some (d ++
        ([h].filter (·.connectedBelowAt x)).map (fun h => (h.seg, h.sweepIdx.getD 0))) := by
      by_cases c : h.connectedBelowAt x = true
      · obtain ⟨i, hi⟩ := Option.isSome_iff_exists.1 (h2 h (List.mem_cons_self ..) c)
        simp [pushIf, c, hi]
      · simp [pushIf, c]
    simp only [gatherActive, a1, a2, ih']
    by_cases c1 : h.connectedAboveAt x = true <;> by_cases c2 : h.connectedBelowAt x = true <;> simp [c1, c2]

theorem gatherEvents_eq (x : K) (hs : List (OutputEvent K))
    (h1 : ∀ h ∈ hs, h.connectedAboveAt x = true → h.oldSweepIdx.isSome)
    (h2 : ∀ h ∈ hs, h.connectedBelowAt x = true → h.sweepIdx.isSome) : ∀ u d,
    gatherEvents x hs (u, d) = some
      (u ++ (hs.filter (·.connectedAboveAt x)).map (fun h => (h.segIdx, h.oldSweepIdx.getD 0)),
       d ++ (hs.filter (·.connectedBelowAt x)).map (fun h => (h.segIdx, h.sweepIdx.getD 0))) := by
  induction hs with
  | nil => intro u d; simp [gatherEvents]
  | cons h hs ih =>
    intro u d
    have ih' := ih (fun a ha => h1 a (List.mem_cons_of_mem _ ha)) (fun a ha => h2 a (List.mem_cons_of_mem _ ha))
    have a1 : pushIf (h.connectedAboveAt x) h.segIdx h.oldSweepIdx u = some (u ++
        ([h].filter (·.connectedAboveAt x)).map (fun h => (h.segIdx, h.oldSweepIdx.getD 0))) := by
      by_cases c : h.connectedAboveAt x = true
      · obtain ⟨i, hi⟩ := Option.isSome_iff_exists.1 (h1 h (List.mem_cons_self ..) c)
        simp [pushIf, c, hi]
      · simp [pushIf, c]
    have a2 : pushIf (h.connectedBelowAt x) h.segIdx h.sweepIdx d = some (d ++
        ([h].filter (·.connectedBelowAt x)).map (fun h => (h.segIdx, h.sweepIdx.getD 0))) := by
      by_cases c : h.connectedBelowAt x = true
      · obtain ⟨i, hi⟩ := Option.isSome_iff_exists.1 (h2 h (List.mem_cons_self ..) c)
        simp [pushIf, c, hi]
      · simp [pushIf, c]
    simp only [gatherEvents, a1, a2, ih']
    by_cases c1 : h.connectedAboveAt x = true <;> by_cases c2 : h.connectedBelowAt x = true <;> simp [c1, c2]

/-- A horizontal that starts before `x` and ends at or after `x` is connected above at `x` exactly if
its event is. -/
theorem frag_above (e : OutputEvent K) (x : K) (h1 : e.smallerX < x) (h2 : x ≤ e.largerX) :
    (frag e).connectedAboveAt x = e.connectedAboveAt x := by
  unfold HFrag.connectedAboveAt OutputEvent.connectedAboveAt frag
  rcases le_total e.x0 e.x1 with h | h
  · have e1 : e.smallerX = e.x0 := min_eq_left h
    have e2 : e.largerX = e.x1 := max_eq_right h
    rw [e1] at h1; rw [e2] at h2
    have h3 : e.x0 < e.x1 := lt_of_lt_of_le h1 h2
    simp [e1, e2, h3]
  · have e1 : e.smallerX = e.x1 := min_eq_right h
    have e2 : e.largerX = e.x0 := max_eq_left h
    simp [e1, e2, not_lt.2 h]

theorem frag_below (e : OutputEvent K) (x : K) (h1 : e.smallerX < x) (h2 : x ≤ e.largerX) :
    (frag e).connectedBelowAt x = e.connectedBelowAt x := by
  unfold HFrag.connectedBelowAt OutputEvent.connectedBelowAt frag
  rcases le_total e.x0 e.x1 with h | h
  · have e1 : e.smallerX = e.x0 := min_eq_left h
    have e2 : e.largerX = e.x1 := max_eq_right h
    rw [e1] at h1; rw [e2] at h2
    have h3 : e.x0 < e.x1 := lt_of_lt_of_le h1 h2
    simp [e1, e2, h3]
  · have e1 : e.smallerX = e.x1 := min_eq_right h
    have e2 : e.largerX = e.x0 := max_eq_left h
    rw [e1] at h1
    simp [e1, e2, not_lt.2 h, ne_of_gt h1]

/-- Each event has an end above its smaller position and at most its larger one. -/
theorem ends_between (e : OutputEvent K) (x : K) (h : x = e.x0 ∨ x = e.x1) :
    e.smallerX ≤ x ∧ x ≤ e.largerX := by
  rcases h with rfl | rfl
  · exact ⟨min_le_left _ _, le_max_left _ _⟩
  · exact ⟨min_le_right _ _, le_max_right _ _⟩

/-- Splitting the events that touch `x` into active horizontals and events starting at `x`. -/
theorem RInv.at_x_perm {E : List (OutputEvent K)} (hE : E.Pairwise fun a b => a.smallerX ≤ b.smallerX)
    {cur : WithBot K} {r : SLRange K} (h : RInv E cur r) (x : K) (hx : r.x = some x)
    (P : OutputEvent K → Bool) (Q : HFrag K → Bool)
    (hP : ∀ e, P e = true → x = e.x0 ∨ x = e.x1)
    (hPQ : ∀ e, e.smallerX < x → x ≤ e.largerX → Q (frag e) = P e)
    {β : Type} (f : HFrag K → β) (g : OutputEvent K → β) (hfg : ∀ e, f (frag e) = g e) :
    ((r.active.filter Q).map f ++ ((r.positionsAtX x).filter P).map g).Perm ((E.filter P).map g) := by
  obtain ⟨hcur, hact, hev, _⟩ := h.x_spec hE x hx
  obtain ⟨pre, e1, e2, e3⟩ := h.split
  have hEr : r.events.Pairwise fun a b => a.smallerX ≤ b.smallerX := by
    rw [e1] at hE; exact (List.pairwise_append.1 hE).2.1
  have hpos : (r.positionsAtX x).filter P = r.events.filter P := by
    unfold SLRange.positionsAtX
    rw [takeWhile_congr_ge x r.events hev, takeWhile_eq_filter _ _ _ hEr, List.filter_filter]
    · apply List.filter_congr
      intro e he
      by_cases hp : P e = true
      · have := (ends_between e x (hP e hp)).1
        simp [hp, this]
      · simp [hp]
    · intro a b hab hb; simp at *; exact le_trans hab hb
  rw [hpos]
  have hE2 : (E.filter P).map g = ((pre.filter P).map g) ++ ((r.events.filter P).map g) := by
    rw [← List.map_append, ← List.filter_append, ← e1]
  rw [hE2]
  refine List.Perm.append_right _ ?_
  have p1 : ((r.active.filter Q).map f).Perm
      ((((pre.filter fun e => decide (cur < (e.largerX : WithBot K))).map frag).filter Q).map f) :=
    (e3.filter Q).map f
  refine p1.trans ?_
  rw [List.filter_map, List.map_map, List.filter_filter]
  have : pre.filter (fun a => (Q ∘ frag) a && decide (cur < (a.largerX : WithBot K))) = pre.filter P := by
    apply List.filter_congr
    intro e he
    have hs := e2 e he
    have hsx : e.smallerX < x := WithBot.coe_lt_coe.1 (lt_of_le_of_lt hs hcur)
    by_cases q : cur < (e.largerX : WithBot K)
    · have hm : frag e ∈ r.active := by
        rw [e3.mem_iff]
        exact List.mem_map_of_mem (by simp [he, q])
      have := hPQ e hsx (hact _ hm)
      simp [q, this]
    · have hp : ¬ P e = true := by
        intro hp
        have := (ends_between e x (hP e hp)).2
        exact q (lt_of_lt_of_le hcur (WithBot.coe_le_coe.2 this))
      simp [q, hp]
  rw [this]
  have hfg' : f ∘ frag = g := by funext e; exact hfg e
  rw [hfg']
where
  takeWhile_congr_ge (x : K) (l : List (OutputEvent K)) (h : ∀ e ∈ l, x ≤ e.smallerX) :
      (l.takeWhile fun p => decide (p.smallerX = x)) = l.takeWhile fun p => decide (p.smallerX ≤ x) := by
    induction l with
    | nil => rfl
    | cons a l ih =>
      have ha := h a (List.mem_cons_self ..)
      have hl := ih (fun e he => h e (List.mem_cons_of_mem _ he))
      by_cases q : a.smallerX = x
      · simp [q, hl]
      · have q2 : ¬ a.smallerX ≤ x := fun hh => q (le_antisymm hh ha)
        simp [q, q2]

/-- The specification of `connected_up`/`connected_down`: `l` is obtained from the pairs
`(segment, index)` of the selected events by sorting by index. -/
def SortedBy (l : List Nat) (ps : List (Nat × Nat)) : Prop :=
  ∃ q : List (Nat × Nat), q.Perm ps ∧ q.Pairwise (fun a b => a.2 ≤ b.2) ∧ l = q.map Prod.fst

theorem mergeSort_snd_sorted (l : List (Nat × Nat)) :
    (l.mergeSort fun a b => decide (a.2 ≤ b.2)).Pairwise fun a b => a.2 ≤ b.2 := by
  have := List.pairwise_mergeSort (le := fun a b : Nat × Nat => decide (a.2 ≤ b.2))
    (by intro a b c h1 h2; simp at *; omega) (by intro a b; simp; omega) l
  exact this.imp (by intro a b h; simpa using h)

theorem RInv.segmentsAtX {E : List (OutputEvent K)} (hE : E.Pairwise fun a b => a.smallerX ≤ b.smallerX)
    (ho : ∀ e ∈ E, e.connectedAbove = true → e.oldSweepIdx.isSome)
    (hn : ∀ e ∈ E, e.connectedBelow = true → e.sweepIdx.isSome)
    {cur : WithBot K} {r : SLRange K} (h : RInv E cur r) (x : K) (hx : r.x = some x) :
    ∃ up down, r.segmentsAtX = some (up, down) ∧
      SortedBy up ((E.filter (·.connectedAboveAt x)).map fun e => (e.segIdx, e.oldSweepIdx.getD 0)) ∧
      SortedBy down ((E.filter (·.connectedBelowAt x)).map fun e => (e.segIdx, e.sweepIdx.getD 0)) := by
  obtain ⟨hcur, hact, hev, _⟩ := h.x_spec hE x hx
  have hap := h.active_perm
  obtain ⟨pre, e1, e2, e3⟩ := h.split
  have hfr : ∀ a ∈ r.active, ∃ e ∈ E, a = frag e ∧ e.smallerX < x ∧ x ≤ e.largerX := by
    intro a ha
    have := hap.mem_iff.1 ha
    simp only [List.mem_map, List.mem_filter, decide_eq_true_eq] at this
    obtain ⟨e, ⟨he, q1, q2⟩, rfl⟩ := this
    exact ⟨e, he, rfl, WithBot.coe_lt_coe.1 (lt_of_le_of_lt q1 hcur), hact _ ha⟩
  have hpe : ∀ e ∈ r.positionsAtX x, e ∈ E := by
    intro e he
    have := (List.takeWhile_sublist (fun p : OutputEvent K => decide (p.smallerX = x)) (l := r.events)).subset he
    rw [e1]; exact List.mem_append_right _ this
  have g1 := gatherActive_eq x r.active
    (by
      intro a ha hc
      obtain ⟨e, he, rfl, q1, q2⟩ := hfr a ha
      rw [frag_above e x q1 q2] at hc
      simp only [OutputEvent.connectedAboveAt, Bool.and_eq_true] at hc
      exact ho e he hc.2)
    (by
      intro a ha hc
      obtain ⟨e, he, rfl, q1, q2⟩ := hfr a ha
      rw [frag_below e x q1 q2] at hc
      simp only [OutputEvent.connectedBelowAt, Bool.and_eq_true] at hc
      exact hn e he hc.2) [] []
  have g2 := gatherEvents_eq x (r.positionsAtX x)
    (by
      intro a ha hc
      simp only [OutputEvent.connectedAboveAt, Bool.and_eq_true] at hc
      exact ho a (hpe a ha) hc.2)
    (by
      intro a ha hc
      simp only [OutputEvent.connectedBelowAt, Bool.and_eq_true] at hc
      exact hn a (hpe a ha) hc.2)
  have p1 := h.at_x_perm hE x hx (fun e => e.connectedAboveAt x) (fun a => a.connectedAboveAt x)
    (by intro e he; simp [OutputEvent.connectedAboveAt] at he; exact .inl he.1)
    (fun e q1 q2 => frag_above e x q1 q2) (fun a => (a.seg, a.oldSweepIdx.getD 0))
    (fun e => (e.segIdx, e.oldSweepIdx.getD 0)) (fun e => rfl)
  have p2 := h.at_x_perm hE x hx (fun e => e.connectedBelowAt x) (fun a => a.connectedBelowAt x)
    (by intro e he; simp [OutputEvent.connectedBelowAt] at he; exact .inr he.1)
    (fun e q1 q2 => frag_below e x q1 q2) (fun a => (a.seg, a.sweepIdx.getD 0))
    (fun e => (e.segIdx, e.sweepIdx.getD 0)) (fun e => rfl)
  unfold SLRange.segmentsAtX
  rw [hx]
  simp only [g1, g2, List.nil_append]
  refine ⟨_, _, rfl, ⟨_, (List.mergeSort_perm _ _).trans p1, mergeSort_snd_sorted _, rfl⟩,
    ⟨_, (List.mergeSort_perm _ _).trans p2, mergeSort_snd_sorted _, rfl⟩⟩

/-- **C37 (`connected_up`, `connected_down`).** At every visited position `x`, the segments reported as
connected upwards (downwards) are exactly those whose event enters (leaves) the sweep line at `x`, in the
order of the old (new) sweep line. -/
theorem C37_connected (E : List (OutputEvent K)) (hE : E.Pairwise fun a b => a.smallerX ≤ b.smallerX)
    (ho : ∀ e ∈ E, e.connectedAbove = true → e.oldSweepIdx.isSome)
    (hn : ∀ e ∈ E, e.connectedBelow = true → e.sweepIdx.isSome) (n : Nat) (x : K)
    (hx : (iterX n (SLRange.new E)).x = some x) :
    ∃ up down, (iterX n (SLRange.new E)).segmentsAtX = some (up, down) ∧
      SortedBy up ((E.filter fun e => decide (e.x0 = x) && e.connectedAbove).map
        fun e => (e.segIdx, e.oldSweepIdx.getD 0)) ∧
      SortedBy down ((E.filter fun e => decide (e.x1 = x) && e.connectedBelow).map
        fun e => (e.segIdx, e.sweepIdx.getD 0)) := by
  obtain ⟨cur, h⟩ := rinv_iter E hE n
  obtain ⟨up, down, g1, g2, g3⟩ := h.segmentsAtX hE ho hn x hx
  refine ⟨up, down, g1, ?_, ?_⟩
  · have : (fun e : OutputEvent K => e.connectedAboveAt x) = fun e => decide (e.x0 = x) && e.connectedAbove := by
      funext e; simp [OutputEvent.connectedAboveAt, eq_comm]
    rw [← this]; exact g2
  · have : (fun e : OutputEvent K => e.connectedBelowAt x) = fun e => decide (e.x1 = x) && e.connectedBelow := by
      funext e; simp [OutputEvent.connectedBelowAt, eq_comm]
    rw [← this]; exact g3

/-! ## Completeness -/

/-- After `n` steps either position `y` has been visited or it lies ahead. -/
theorem visited_or_ahead (E : List (OutputEvent K)) (hE : E.Pairwise fun a b => a.smallerX ≤ b.smallerX)
    (e : OutputEvent K) (he : e ∈ E) (y : K) (hy : y = e.x0 ∨ y = e.x1) (n : Nat) :
    (∃ k < n, (iterX k (SLRange.new E)).x = some y) ∨
      ∃ cur, RInv E cur (iterX n (SLRange.new E)) ∧ cur < (y : WithBot K) := by
  induction n with
  | zero => exact .inr ⟨⊥, rinv_new E, WithBot.bot_lt_coe _⟩
  | succ n ih =>
    rcases ih with ⟨k, hk, h⟩ | ⟨cur, h, hlt⟩
    · exact .inl ⟨k, by omega, h⟩
    · cases hx : (iterX n (SLRange.new E)).x with
      | none =>
        exfalso
        obtain ⟨a1, a2⟩ := x_none _ hx
        obtain ⟨pre, e1, e2, e3⟩ := h.split
        rw [a2, List.append_nil] at e1
        rw [a1] at e3
        have hnil := List.nil_perm.1 e3
        rw [List.map_eq_nil_iff, List.filter_eq_nil_iff] at hnil
        have := hnil e (e1 ▸ he)
        simp only [decide_eq_true_eq] at this
        exact this (lt_of_lt_of_le hlt (WithBot.coe_le_coe.2 (ends_between e y hy).2))
      | some x =>
        by_cases hxy : x = y
        · exact .inl ⟨n, by omega, hxy ▸ hx⟩
        · right
          refine ⟨x, ?_, ?_⟩
          · rw [iterX_succ]; unfold SLRange.increaseX; rw [hx]; exact h.step hE x hx _
          · obtain ⟨_, q1, q2, _⟩ := h.x_spec hE x hx
            have hle : x ≤ y := by
              obtain ⟨pre, e1, e2, e3⟩ := h.split
              have he' := he
              rw [e1, List.mem_append] at he'
              rcases he' with hp | hp
              · have hs := e2 e hp
                have hye := ends_between e y hy
                -- `y` is not the left end, so it is the right end
                have hm : frag e ∈ (iterX n (SLRange.new E)).active := by
                  rw [e3.mem_iff]
                  refine List.mem_map_of_mem ?_
                  rw [List.mem_filter, decide_eq_true_eq]
                  exact ⟨hp, lt_of_lt_of_le hlt (WithBot.coe_le_coe.2 hye.2)⟩
                have h1 : x ≤ e.largerX := q1 _ hm
                have h2 : y = e.largerX := by
                  have hne : e.smallerX < y := WithBot.coe_lt_coe.1 (lt_of_le_of_lt hs hlt)
                  unfold OutputEvent.smallerX at hne
                  unfold OutputEvent.largerX at *
                  rcases hy with rfl | rfl
                  · rcases min_lt_iff.1 hne with q | q
                    · exact absurd q (lt_irrefl _)
                    · exact (max_eq_left q.le).symm
                  · rcases min_lt_iff.1 hne with q | q
                    · exact (max_eq_right q.le).symm
                    · exact absurd q (lt_irrefl _)
                rw [h2]; exact h1
              · exact le_trans (q2 e hp) (ends_between e y hy).1
            exact WithBot.coe_lt_coe.2 (lt_of_le_of_ne hle hxy)

/-- After enough steps, nothing is left. -/
theorem iter_terminates (E : List (OutputEvent K)) : ∃ n, (iterX n (SLRange.new E)).x = none := by
  have key : ∀ m (r : SLRange K), r.size ≤ m → ∃ n, (iterX n r).x = none := by
    intro m
    induction m with
    | zero =>
      intro r hr
      refine ⟨0, ?_⟩
      unfold SLRange.size at hr
      have h1 : r.active = [] := List.length_eq_zero_iff.1 (by omega)
      have h2 : r.events = [] := List.length_eq_zero_iff.1 (by omega)
      simp [iterX, SLRange.x, h1, h2]
    | succ m ih =>
      intro r hr
      cases hx : r.x with
      | none => exact ⟨0, hx⟩
      | some x =>
        have hs := size_step r x hx
        obtain ⟨n, hn⟩ := ih r.increaseX (by
          unfold SLRange.increaseX; rw [hx]
          simp only [SLRange.size] at *
          omega)
        exact ⟨n + 1, hn⟩
  exact key _ _ le_rfl

/-- **C37 (completeness).** The positions visited by `x`/`increase_x` are exactly the ends of the events,
and the enumeration stops. -/
theorem C37_positions_exact (E : List (OutputEvent K)) (hE : E.Pairwise fun a b => a.smallerX ≤ b.smallerX) :
    (∃ n, (iterX n (SLRange.new E)).x = none) ∧
    ∀ y, (∃ n, (iterX n (SLRange.new E)).x = some y) ↔ ∃ e ∈ E, e.x0 = y ∨ e.x1 = y := by
  refine ⟨iter_terminates E, fun y => ⟨fun ⟨n, hn⟩ => C37_positions_are_ends E hE n y hn, ?_⟩⟩
  rintro ⟨e, he, hy⟩
  obtain ⟨n, hn⟩ := iter_terminates E
  rcases visited_or_ahead E hE e he y (by tauto) n with ⟨k, _, h⟩ | ⟨cur, h, hlt⟩
  · exact ⟨k, h⟩
  · exfalso
    obtain ⟨a1, a2⟩ := x_none _ hn
    obtain ⟨pre, e1, e2, e3⟩ := h.split
    rw [a2, List.append_nil] at e1
    rw [a1] at e3
    have hnil := List.nil_perm.1 e3
    rw [List.map_eq_nil_iff, List.filter_eq_nil_iff] at hnil
    have := hnil e (e1 ▸ he)
    simp only [decide_eq_true_eq] at this
    exact this (lt_of_lt_of_le hlt (WithBot.coe_le_coe.2 (ends_between e y (by tauto)).2))

/-! ## Non-vacuity -/

example : (∀ e ∈ sampleEvents, e.connectedAbove = true → e.oldSweepIdx.isSome) ∧
    (∀ e ∈ sampleEvents, e.connectedBelow = true → e.sweepIdx.isSome) := by decide

example : (iterX 1 (SLRange.new sampleEvents)).x = some 1 := by
  simp [sampleEvents, SLRange.new, iterX, SLRange.increaseX, SLRange.x, OutputEvent.smallerX,
    takeEvents, drainActive, HFrag.fromPosition, sortActive]

end Verif.Range
