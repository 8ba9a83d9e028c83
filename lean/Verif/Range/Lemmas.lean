import Verif.Range.Model
import Mathlib.Order.WithBot
import Mathlib.Order.MinMax
import Mathlib.Data.List.TakeWhile
import Mathlib.Tactic.Order

namespace Verif.Range
set_option linter.unusedSectionVars false

variable {K : Type} [LinearOrder K]

theorem takeEvents_eq (x : K) (evs : List (OutputEvent K)) : ∀ active,
    takeEvents x active evs =
      (active ++ (evs.takeWhile fun e => !decide (x < e.smallerX)).filterMap HFrag.fromPosition,
       evs.dropWhile fun e => !decide (x < e.smallerX)) := by
  induction evs with
  | nil => intro a; simp [takeEvents]
  | cons e evs ih =>
    intro a
    simp only [takeEvents]
    by_cases h : x < e.smallerX
    · simp [h]
    · cases hf : HFrag.fromPosition e <;> simp [h, ih, hf]

theorem length_takeEvents (x : K) (evs : List (OutputEvent K)) (active : List (HFrag K)) :
    2 * (takeEvents x active evs).2.length + (takeEvents x active evs).1.length ≤
      2 * evs.length + active.length := by
  induction evs generalizing active with
  | nil => simp [takeEvents]
  | cons e evs ih =>
    simp only [takeEvents]
    by_cases h : x < e.smallerX
    · simp [h]
    · simp only [h, if_false]
      cases HFrag.fromPosition e with
      | none => have := ih active; simp only [List.length_cons]; omega
      | some f => have := ih (active ++ [f]); simp only [List.length_cons, List.length_append, List.length_nil] at *; omega

/-- Termination measure of the loops over a range. -/
def SLRange.size (r : SLRange K) : Nat := 2 * r.events.length + r.active.length

theorem size_step (r : SLRange K) (x : K) (h : r.x = some x) :
    2 * (takeEvents x (drainActive r.active x) r.events).2.length +
      (sortActive (takeEvents x (drainActive r.active x) r.events).1).length < r.size := by
  have hs : ∀ l : List (HFrag K), (sortActive l).length = l.length := fun l => by simp [sortActive]
  rw [hs]
  have hd : (drainActive r.active x).length ≤ r.active.length := by
    unfold drainActive; exact (List.dropWhile_sublist _).length_le
  have key := length_takeEvents x r.events (drainActive r.active x)
  unfold SLRange.size
  cases ha : r.active with
  | cons f fs =>
    by_cases hf : x < f.stop
    · -- then the first event is at `x`
      cases he : r.events with
      | nil => simp [SLRange.x, ha, he] at h; rw [h] at hf; exact absurd hf (lt_irrefl _)
      | cons e es =>
        simp only [SLRange.x, ha, he, List.head?_cons, Option.some.injEq] at h
        have hx : ¬ x < e.smallerX := by
          rcases min_choice f.stop e.smallerX with h1 | h1
          · rw [h1] at h; rw [h] at hf; exact absurd hf (lt_irrefl _)
          · rw [h1] at h; rw [h]; exact lt_irrefl _
        have hda : drainActive (f :: fs) x = f :: fs := by simp [drainActive, hf]
        rw [hda]
        simp only [takeEvents, hx, if_false]
        cases HFrag.fromPosition e with
        | none => have := length_takeEvents x es (f :: fs); simp only [List.length_cons] at *; omega
        | some g => have := length_takeEvents x es (f :: fs ++ [g])
                    simp only [List.length_cons, List.length_append, List.length_nil] at *; omega
    · have : (drainActive (f :: fs) x).length ≤ fs.length := by
        simp only [drainActive, List.dropWhile_cons, hf, decide_false, Bool.not_false, if_true]
        exact (List.dropWhile_sublist _).length_le
      rw [ha] at key
      simp only [List.length_cons] at *; omega
  | nil =>
    cases he : r.events with
    | nil => simp [SLRange.x, ha, he] at h
    | cons e es =>
      simp only [SLRange.x, ha, he, List.head?_nil, List.head?_cons, Option.some.injEq] at h
      have hx : ¬ x < e.smallerX := by rw [h]; exact lt_irrefl _
      simp only [drainActive, List.dropWhile_nil, takeEvents, hx, if_false]
      cases HFrag.fromPosition e with
      | none => have := length_takeEvents x es []; simp only [List.length_cons, List.length_nil] at *; omega
      | some g => have := length_takeEvents x es ([] ++ [g])
                  simp only [List.length_cons, List.length_append, List.length_nil] at *; omega

/-- Repeated calls of `events()` until it returns `None` (sweep/mod.rs:27-31); `none` is a panic. -/
def SLRange.runEvents (r : SLRange K) : Option (List (List (OutputEvent K))) :=
  match h : r.nextEvents with
  | .done => some []
  | .panic => none
  | .batch evs r' =>
    match r'.runEvents with
    | none => none
    | some rest => some (evs :: rest)
termination_by r.size
decreasing_by
  unfold SLRange.nextEvents at h
  cases hx : r.x with
  | none => rw [hx] at h; simp at h
  | some x =>
    rw [hx] at h
    have := size_step r x hx
    simp only at h
    split at h
    · simp at h
    · simp only [Batch.batch.injEq] at h
      obtain ⟨_, rfl⟩ := h
      exact this

/-- `HFrag::from_position` for an event with an extent. -/
def frag (e : OutputEvent K) : HFrag K :=
  { stop := e.largerX, start := e.smallerX, enterFirst := decide (e.x0 < e.x1), seg := e.segIdx
    connectedAtStart := if e.x0 < e.x1 then e.connectedAbove else e.connectedBelow
    connectedAtEnd := if e.x0 < e.x1 then e.connectedBelow else e.connectedAbove
    sweepIdx := e.sweepIdx, oldSweepIdx := e.oldSweepIdx }

theorem fromPosition_eq (e : OutputEvent K) :
    HFrag.fromPosition e = if e.smallerX < e.largerX then some (frag e) else none := by
  unfold HFrag.fromPosition OutputEvent.smallerX OutputEvent.largerX
  rcases lt_trichotomy e.x0 e.x1 with h | h | h
  · have h' : ¬ e.x0 = e.x1 := ne_of_lt h
    simp [h, h', frag, OutputEvent.smallerX, OutputEvent.largerX, min_eq_left h.le, max_eq_right h.le]
  · simp [h]
  · have h' : ¬ e.x0 = e.x1 := ne_of_gt h
    have h'' : ¬ e.x0 < e.x1 := lt_asymm h
    simp [h, h', h'', frag, OutputEvent.smallerX, OutputEvent.largerX, min_eq_right h.le, max_eq_left h.le]

/-- The state of a range after all positions up to and including `cur` have been visited, for the list
`E` of events it was created with. -/
structure RInv (E : List (OutputEvent K)) (cur : WithBot K) (r : SLRange K) : Prop where
  split : ∃ pre, E = pre ++ r.events ∧ (∀ e ∈ pre, (e.smallerX : WithBot K) ≤ cur) ∧
    r.active.Perm ((pre.filter fun e => decide (cur < (e.largerX : WithBot K))).map frag)
  rest : ∀ e ∈ r.events, cur < (e.smallerX : WithBot K)
  sorted : r.active.Pairwise fun a b => a.stop ≤ b.stop

theorem RInv.active_perm {E : List (OutputEvent K)} {cur : WithBot K} {r : SLRange K} (h : RInv E cur r) :
    r.active.Perm ((E.filter fun e => decide ((e.smallerX : WithBot K) ≤ cur ∧ cur < (e.largerX : WithBot K))).map frag) := by
  obtain ⟨pre, e1, e2, e3⟩ := h.split
  have h1 : (r.events.filter fun e => decide ((e.smallerX : WithBot K) ≤ cur ∧ cur < (e.largerX : WithBot K))) = [] := by
    rw [List.filter_eq_nil_iff]
    intro e he; simp only [decide_eq_true_eq, not_and]
    intro hc; exact absurd hc (not_le.2 (h.rest e he))
  have h2 : (pre.filter fun e => decide ((e.smallerX : WithBot K) ≤ cur ∧ cur < (e.largerX : WithBot K))) =
      pre.filter fun e => decide (cur < (e.largerX : WithBot K)) := by
    apply List.filter_congr
    intro e he
    have := e2 e he
    simp [this]
  rw [e1, List.filter_append, h1, h2, List.append_nil]
  exact e3

theorem rinv_new (E : List (OutputEvent K)) : RInv E ⊥ (SLRange.new E) :=
  ⟨⟨[], by simp [SLRange.new]⟩, fun e _ => WithBot.bot_lt_coe _, by simp [SLRange.new]⟩

theorem RInv.stop_gt {E : List (OutputEvent K)} {cur : WithBot K} {r : SLRange K} (h : RInv E cur r)
    (a : HFrag K) (ha : a ∈ r.active) : cur < (a.stop : WithBot K) := by
  obtain ⟨pre, _, _, h3⟩ := h.split
  have := h3.mem_iff.1 ha
  simp only [List.mem_map, List.mem_filter, decide_eq_true_eq] at this
  obtain ⟨e, ⟨_, h4⟩, rfl⟩ := this
  exact h4

/-- The next position is the smallest one after `cur`. -/
theorem RInv.x_spec {E : List (OutputEvent K)} (hE : E.Pairwise fun a b => a.smallerX ≤ b.smallerX)
    {cur : WithBot K} {r : SLRange K} (h : RInv E cur r) (x : K) (hx : r.x = some x) :
    cur < (x : WithBot K) ∧ (∀ a ∈ r.active, x ≤ a.stop) ∧ (∀ e ∈ r.events, x ≤ e.smallerX) ∧
    ((∃ a ∈ r.active, a.stop = x) ∨ ∃ e ∈ r.events, e.smallerX = x) := by
  have hact : ∀ f fs, r.active = f :: fs → ∀ a ∈ r.active, f.stop ≤ a.stop := by
    intro f fs hf a ha
    have := h.sorted
    rw [hf] at this ha
    rw [List.mem_cons] at ha
    rcases ha with rfl | ha
    · exact le_rfl
    · exact (List.pairwise_cons.1 this).1 a ha
  have hev : ∀ f fs, r.events = f :: fs → ∀ a ∈ r.events, f.smallerX ≤ a.smallerX := by
    obtain ⟨pre, e1, _⟩ := h.split
    intro f fs hf a ha
    rw [e1] at hE
    have := (List.pairwise_append.1 hE).2.1
    rw [hf] at this ha
    rw [List.mem_cons] at ha
    rcases ha with rfl | ha
    · exact le_rfl
    · exact (List.pairwise_cons.1 this).1 a ha
  cases ha : r.active with
  | nil =>
    cases he : r.events with
    | nil => simp [SLRange.x, ha, he] at hx
    | cons e es =>
      simp only [SLRange.x, ha, he, List.head?_nil, List.head?_cons, Option.some.injEq] at hx
      subst hx
      exact ⟨h.rest e (by rw [he]; simp), by simp, by rw [← he]; exact hev e es he, .inr ⟨e, by simp, rfl⟩⟩
  | cons f fs =>
    cases he : r.events with
    | nil =>
      simp only [SLRange.x, ha, he, List.head?_nil, List.head?_cons, Option.some.injEq] at hx
      subst hx
      exact ⟨h.stop_gt f (by rw [ha]; simp), by rw [← ha]; exact hact f fs ha, by simp, .inl ⟨f, by simp, rfl⟩⟩
    | cons e es =>
      simp only [SLRange.x, ha, he, List.head?_cons, Option.some.injEq] at hx
      have h1 := h.stop_gt f (by rw [ha]; simp)
      have h2 := h.rest e (by rw [he]; simp)
      subst hx
      refine ⟨?_, ?_, ?_, ?_⟩
      · rcases min_choice f.stop e.smallerX with q | q <;> rw [q] <;> assumption
      · rw [← ha]; intro a ha'; exact le_trans (min_le_left _ _) (hact f fs ha a ha')
      · rw [← he]; intro a ha'; exact le_trans (min_le_right _ _) (hev e es he a ha')
      · rcases min_choice f.stop e.smallerX with q | q
        · exact .inl ⟨f, by simp, q.symm⟩
        · exact .inr ⟨e, by simp, q.symm⟩

theorem x_none (r : SLRange K) (h : r.x = none) : r.active = [] ∧ r.events = [] := by
  unfold SLRange.x at h
  cases ha : r.active with
  | nil =>
    cases he : r.events with
    | nil => exact ⟨rfl, rfl⟩
    | cons e es => simp [ha, he] at h
  | cons f fs => cases he : r.events <;> simp [ha, he] at h

theorem dropWhile_eq_filter {α : Type} (p : α → Bool) (R : α → α → Prop) (l : List α) (hl : l.Pairwise R)
    (hR : ∀ a b, R a b → p b = true → p a = true) : l.dropWhile p = l.filter fun a => !p a := by
  induction l with
  | nil => rfl
  | cons a l ih =>
    rw [List.pairwise_cons] at hl
    by_cases h : p a = true
    · simp [h, ih hl.2]
    · rw [List.dropWhile_cons_of_neg h]
      symm
      rw [List.filter_eq_self]
      intro b hb
      rw [List.mem_cons] at hb
      rcases hb with rfl | hb
      · simpa using h
      · cases hpb : p b with
        | false => rfl
        | true => exact absurd (hR a b (hl.1 b hb) hpb) h

theorem takeWhile_eq_filter {α : Type} (p : α → Bool) (R : α → α → Prop) (l : List α) (hl : l.Pairwise R)
    (hR : ∀ a b, R a b → p b = true → p a = true) : l.takeWhile p = l.filter p := by
  induction l with
  | nil => rfl
  | cons a l ih =>
    rw [List.pairwise_cons] at hl
    by_cases h : p a = true
    · simp [h, ih hl.2]
    · rw [List.takeWhile_cons_of_neg h]
      symm
      rw [List.filter_eq_nil_iff]
      intro b hb
      rw [List.mem_cons] at hb
      rcases hb with rfl | hb
      · exact h
      · intro hpb; exact h (hR a b (hl.1 b hb) hpb)

theorem sortActive_perm (l : List (HFrag K)) : (sortActive l).Perm l := List.mergeSort_perm _ _

theorem sortActive_sorted (l : List (HFrag K)) : (sortActive l).Pairwise fun a b => a.stop ≤ b.stop := by
  have := List.pairwise_mergeSort (le := fun a b : HFrag K => decide (a.stop ≤ b.stop))
    (by intro a b c h1 h2; simp at *; exact le_trans h1 h2) (by intro a b; simp; exact le_total _ _) l
  exact this.imp (by intro a b h; simpa using h)

theorem filterMap_frag (l : List (OutputEvent K)) :
    l.filterMap HFrag.fromPosition = (l.filter fun e => decide (e.smallerX < e.largerX)).map frag := by
  induction l with
  | nil => rfl
  | cons e l ih =>
    rw [List.filterMap_cons, fromPosition_eq]
    by_cases h : e.smallerX < e.largerX <;> simp [h, ih]

/-- Advancing to `x` re-establishes the invariant at `x`. -/
theorem RInv.step {E : List (OutputEvent K)} (hE : E.Pairwise fun a b => a.smallerX ≤ b.smallerX)
    {cur : WithBot K} {r : SLRange K} (h : RInv E cur r) (x : K) (hx : r.x = some x) (lx : Option K) :
    RInv E x ⟨lx, sortActive (takeEvents x (drainActive r.active x) r.events).1,
      (takeEvents x (drainActive r.active x) r.events).2⟩ := by
  obtain ⟨hcur, hact, hev, _⟩ := h.x_spec hE x hx
  obtain ⟨pre, e1, e2, e3⟩ := h.split
  have hEr : r.events.Pairwise fun a b => a.smallerX ≤ b.smallerX := by
    rw [e1] at hE; exact (List.pairwise_append.1 hE).2.1
  rw [takeEvents_eq]
  refine ⟨⟨pre ++ r.events.takeWhile fun e => !decide (x < e.smallerX), ?_, ?_, ?_⟩, ?_, sortActive_sorted _⟩
  · simp only [List.append_assoc, List.takeWhile_append_dropWhile]; exact e1
  · intro e he
    rw [List.mem_append] at he
    rcases he with he | he
    · exact le_trans (e2 e he) hcur.le
    · have := List.mem_takeWhile_imp he
      simp at this
      exact WithBot.coe_le_coe.2 this
  · refine (sortActive_perm _).trans ?_
    rw [List.filter_append, List.map_append]
    apply List.Perm.append
    · have : drainActive r.active x = r.active.filter fun a => decide (x < a.stop) := by
        unfold drainActive
        rw [dropWhile_eq_filter _ _ _ h.sorted]
        · simp
        · intro a b hab hb
          simp at *
          exact le_trans hab hb
      rw [this]
      have := e3.filter fun a => decide (x < a.stop)
      refine this.trans ?_
      rw [List.filter_map, List.filter_filter]
      apply List.Perm.of_eq
      congr 1
      apply List.filter_congr
      intro e _
      simp only [Function.comp, frag]
      by_cases q : x < e.largerX
      · have : cur < (e.largerX : WithBot K) := lt_trans hcur (WithBot.coe_lt_coe.2 q)
        simp [q, this]
      · simp [q]
    · rw [filterMap_frag]
      apply List.Perm.of_eq
      congr 1
      apply List.filter_congr
      intro e he
      have h1 := List.mem_takeWhile_imp he
      have h2 := hev e ((List.takeWhile_sublist _).subset he)
      simp at h1
      have : e.smallerX = x := le_antisymm h1 h2
      simp [this]
  · intro e he
    have : r.events.dropWhile (fun e => !decide (x < e.smallerX)) =
        r.events.filter fun e => decide (x < e.smallerX) := by
      rw [dropWhile_eq_filter _ _ _ hEr]
      · simp
      · intro a b hab hb; simp at *; exact le_trans hab hb
    simp only [this, List.mem_filter, decide_eq_true_eq] at he
    exact WithBot.coe_lt_coe.2 he.2

end Verif.Range
