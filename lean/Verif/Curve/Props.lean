import Verif.Curve.Lemmas2
import Mathlib.Order.Nat

/-!
# Properties C07–C11, C46, C47: curve comparisons

Heights are an arbitrary linear order.
-/

namespace Verif.Curve

set_option linter.unusedSectionVars false
set_option linter.unusedVariables false

variable {K : Type} [LinearOrder K]

/-! ## Specification -/

/-- A well-formed comparison: non-empty; its pieces tile `[start, end]` from `start` on without gaps
and are never inverted; neighbouring pieces have different orders, one of which is undetermined. -/
def WF (c : CurveOrder K) : Prop := c.cmps ≠ [] ∧ Tiled c.start c.iter

/-- The end of the covered range. -/
def EndsAt (c : CurveOrder K) (e : K) : Prop := ∃ l, c.cmps.getLast? = some l ∧ l.stop = e

/-- Pushing a whole history of pieces. -/
def pushAll (c : CurveOrder K) : List (K × Order) → Option (CurveOrder K)
  | [] => some c
  | (e, o) :: rest =>
    match c.push e o with
    | none => none
    | some c' => pushAll c' rest

/-- The ends of a push history never decrease, starting from `lo`. -/
def Ascending (lo : K) : List (K × Order) → Prop
  | [] => True
  | (e, _) :: rest => lo ≤ e ∧ Ascending e rest

/-- Opposite definite orders. -/
def Opposite (a b : Order) : Prop := (a = .left ∧ b = .right) ∨ (a = .right ∧ b = .left)

/-! ## Helper facts -/

theorem wf_snoc {c : CurveOrder K} (h : WF c) :
    ∃ as e, c.cmps = as ++ [e] ∧ c.cmps.getLast? = some e := by
  refine ⟨c.cmps.dropLast, c.cmps.getLast h.1, (List.dropLast_concat_getLast h.1).symm, ?_⟩
  exact List.getLast?_eq_some_getLast h.1

/-- `WF` is what `check_invariants` checks, plus "starts at `start`". -/
theorem checkInvariants_iff (c : CurveOrder K) :
    WF c ↔ (c.checkInvariants = true ∧ ∀ e, c.cmps.head? = some e → c.start ≤ e.stop) := by
  obtain ⟨s, es⟩ := c
  cases es with
  | nil => simp [WF, CurveOrder.checkInvariants]
  | cons e es =>
    simp only [WF, CurveOrder.checkInvariants, CurveOrder.iter, pieces, ne_eq, reduceCtorEq,
      not_false_eq_true, true_and, List.isEmpty_cons, Bool.not_false, Bool.true_and,
      List.head?_cons, Option.some.injEq, forall_eq']
    induction es generalizing s e with
    | nil => simp [pieces, Tiled, CurveOrder.checkEntries]
    | cons f es ih =>
      have := ih e.stop f
      simp only [pieces] at this ⊢
      simp only [Tiled, CurveOrder.checkEntries, Adj, this, Bool.and_eq_true, decide_eq_true_eq,
        Bool.or_eq_true]
      constructor
      · rintro ⟨_, h1, ⟨_, h2, h3⟩, h4, h5⟩
        exact ⟨⟨⟨⟨h5, h2⟩, h3⟩, h4⟩, h1⟩
      · rintro ⟨⟨⟨⟨h5, h2⟩, h3⟩, h4⟩, h1⟩
        exact ⟨trivial, h1, ⟨trivial, h2, h3⟩, h4, h5⟩

theorem iter_snoc {c : CurveOrder K} {as : List (Entry K)} {e : Entry K} (h : c.cmps = as ++ [e]) :
    c.iter = pieces c.start as ++
      [⟨((as.getLast?).map Entry.stop).getD c.start, e.stop, e.order⟩] := by
  rw [CurveOrder.iter, h, pieces_snoc]

theorem endsAt_last {c : CurveOrder K} {E : K} (hE : EndsAt c E) :
    ∃ p, c.iter.getLast? = some p ∧ p.hi = E := by
  obtain ⟨l, h1, h2⟩ := hE
  have := pieces_getLast? c.start c.cmps
  rw [h1] at this
  simp at this
  obtain ⟨p, h3, h4⟩ := this
  exact ⟨p, h3, by rw [h4, h2]⟩

theorem endsAt_unique {c : CurveOrder K} {E E' : K} (h : EndsAt c E) (h' : EndsAt c E') : E = E' := by
  obtain ⟨l, h1, h2⟩ := h
  obtain ⟨l', h1', h2'⟩ := h'
  rw [h1] at h1'; simp at h1'; rw [← h2, ← h2', h1']

theorem wf_hi_le {c : CurveOrder K} (h : WF c) {E : K} (hE : EndsAt c E) :
    ∀ p ∈ c.iter, p.hi ≤ E := by
  obtain ⟨p, h1, h2⟩ := endsAt_last hE
  intro q hq
  rw [← h2]; exact h.2.last h1 q hq

theorem wf_last_mem {c : CurveOrder K} {E : K} (hE : EndsAt c E) : ∃ p ∈ c.iter, p.hi = E := by
  obtain ⟨p, h1, h2⟩ := endsAt_last hE
  exact ⟨p, List.mem_of_getLast? h1, h2⟩

/-! ## C07: building -/

/-- **C07 (one push).** Pushing a piece that does not go backwards onto a well-formed comparison
succeeds, keeps it well-formed with the same start, and the range now ends at the pushed end. -/
theorem C07_push (c : CurveOrder K) (h : WF c) (E : K) (hE : EndsAt c E) (e : K) (o : Order)
    (he : E ≤ e) :
    ∃ c', c.push e o = some c' ∧ WF c' ∧ c'.start = c.start ∧ EndsAt c' e := by
  obtain ⟨as, l, h1, h2⟩ := wf_snoc h
  have hl : l.stop = E := by
    obtain ⟨l', h3, h4⟩ := hE
    rw [h2] at h3; simp at h3; rw [h3]; exact h4
  have hnlt : ¬ e < l.stop := by rw [hl]; exact not_lt.2 he
  have hle : l.stop ≤ e := not_lt.1 hnlt
  have ht := h.2
  rw [iter_snoc h1] at ht
  have hdl : c.cmps.dropLast = as := by rw [h1]; simp
  have same : ∃ c', some (⟨c.start, c.cmps.dropLast ++ [⟨e, l.order⟩]⟩ : CurveOrder K) = some c' ∧
      WF c' ∧ c'.start = c.start ∧ EndsAt c' e := by
    refine ⟨_, rfl, ⟨by simp, ?_⟩, rfl, ⟨⟨e, l.order⟩, by simp, rfl⟩⟩
    simp only [CurveOrder.iter, hdl, pieces_snoc]
    exact ht.extend (y := e) hle
  have opp : ∀ o', o' ≠ .ish → l.order ≠ .ish → l.order ≠ o' →
      ∃ c', some (⟨c.start, c.cmps ++ [⟨e, .ish⟩, ⟨e, o'⟩]⟩ : CurveOrder K) = some c' ∧
      WF c' ∧ c'.start = c.start ∧ EndsAt c' e := by
    intro o' ho' hlo hne
    refine ⟨_, rfl, ⟨by simp, ?_⟩, rfl, ⟨⟨e, o'⟩, by simp, rfl⟩⟩
    have : (c.cmps ++ [⟨e, .ish⟩, ⟨e, o'⟩] : List (Entry K)) = (as ++ [l] ++ [⟨e, .ish⟩]) ++ [⟨e, o'⟩] := by
      rw [h1]; simp
    simp only [CurveOrder.iter, this]
    rw [pieces_snoc, pieces_snoc, pieces_snoc]
    refine Tiled.snoc (Tiled.snoc ht ?_ ?_ ?_) ?_ ?_ ?_
    · simpa using hle
    · intro p hp; simp at hp; rw [← hp]; simp [Adj, hlo]
    · simp
    · simp
    · intro p hp; simp at hp; rw [← hp]; simp [Adj]; exact fun h => ho' h.symm
    · simp
  have other : (l.order ≠ o) → (l.order = .ish ∨ o = .ish) →
      ∃ c', (if l.stop < e then some (⟨c.start, c.cmps ++ [⟨e, o⟩]⟩ : CurveOrder K) else some c) = some c' ∧
      WF c' ∧ c'.start = c.start ∧ EndsAt c' e := by
    intro hne hish
    split
    · refine ⟨_, rfl, ⟨by simp, ?_⟩, rfl, ⟨⟨e, o⟩, by simp, rfl⟩⟩
      simp only [CurveOrder.iter, h1]
      rw [pieces_snoc, pieces_snoc]
      refine Tiled.snoc ht ?_ ?_ ?_
      · simpa using hle
      · intro p hp; simp at hp; rw [← hp]; simp [Adj, hne, hish]
      · simp
    · refine ⟨c, rfl, h, rfl, ⟨l, h2, by order⟩⟩
  simp only [CurveOrder.push, h2, hnlt, if_false]
  cases hlo : l.order <;> cases o <;> simp only [hlo] at *
  · exact same
  · exact other (by simp) (by simp)
  · exact opp _ (by simp) (by simp) (by simp)
  · exact other (by simp) (by simp)
  · exact same
  · exact other (by simp) (by simp)
  · exact opp _ (by simp) (by simp) (by simp)
  · exact other (by simp) (by simp)
  · exact same

theorem pushAll_wf (ops : List (K × Order)) : ∀ (c : CurveOrder K) (E : K), WF c → EndsAt c E →
    Ascending E ops → ∃ c', pushAll c ops = some c' ∧ WF c' ∧ c'.start = c.start ∧
      EndsAt c' ((ops.getLast?.map Prod.fst).getD E) := by
  induction ops with
  | nil => intro c E h hE _; exact ⟨c, rfl, h, rfl, hE⟩
  | cons a ops ih =>
    intro c E h hE hasc
    obtain ⟨e, o⟩ := a
    obtain ⟨c', h1, h2, h3, h4⟩ := C07_push c h E hE e o hasc.1
    obtain ⟨c'', g1, g2, g3, g4⟩ := ih c' e h2 h4 hasc.2
    refine ⟨c'', by simp [pushAll, h1, g1], g2, by rw [g3, h3], ?_⟩
    cases ops with
    | nil => simpa using g4
    | cons b r => rw [List.getLast?_cons_cons]; simp [List.getLast?_cons] at g4 ⊢; exact g4

/-- **C07.** Any non-empty history of pushes with non-decreasing ends (not before `start`), from a
fresh comparison, succeeds, and yields a well-formed comparison tiling exactly from `start` to the
last pushed end. -/
theorem C07_push_history (s : K) (ops : List (K × Order)) (hne : ops ≠ [])
    (hasc : Ascending s ops) :
    ∃ c, pushAll (CurveOrder.new s) ops = some c ∧ WF c ∧ c.start = s ∧
      c.checkInvariants = true ∧ ∃ last, ops.getLast? = some last ∧ EndsAt c last.1 := by
  cases ops with
  | nil => simp at hne
  | cons a ops =>
    obtain ⟨e, o⟩ := a
    have hw : WF (⟨s, [⟨e, o⟩]⟩ : CurveOrder K) := ⟨by simp, by
      simp [CurveOrder.iter, pieces, Tiled]; exact hasc.1⟩
    obtain ⟨c', g1, g2, g3, g4⟩ := pushAll_wf ops (⟨s, [⟨e, o⟩]⟩ : CurveOrder K) e hw
      ⟨⟨e, o⟩, by simp, rfl⟩ hasc.2
    refine ⟨c', by simpa [pushAll, CurveOrder.push, CurveOrder.new] using g1, g2, g3,
      ((checkInvariants_iff c').1 g2).1, ?_⟩
    cases hl : ops.getLast? with
    | none =>
      have : ops = [] := by simpa using hl
      subst this
      exact ⟨(e, o), by simp, by simpa using g4⟩
    | some last =>
      refine ⟨last, by simp [List.getLast?_cons, hl], ?_⟩
      simpa [hl] using g4

/-- **C07 (tiling).** The iterator starts at `start`, each piece begins where the previous one ended,
and the last one ends at the end. -/
theorem C07_iter_tiles (c : CurveOrder K) (h : WF c) (E : K) (hE : EndsAt c E) :
    (∃ p, c.iter.head? = some p ∧ p.lo = c.start) ∧
    (∃ p, c.iter.getLast? = some p ∧ p.hi = E) ∧
    (∀ as p q bs, c.iter = as ++ p :: q :: bs → p.hi = q.lo) ∧ (∀ p ∈ c.iter, p.lo ≤ p.hi) := by
  refine ⟨?_, endsAt_last hE, ?_, ?_⟩
  · have h2 := h.2
    cases hi : c.iter with
    | nil => exact absurd ((pieces_eq_nil _ _).1 hi) h.1
    | cons p ps => rw [hi] at h2; exact ⟨p, rfl, h2.head.1⟩
  · intro as p q bs e
    have h2 := h.2
    rw [e] at h2; exact h2.adj.1
  · intro p hp; exact (h.2.lo_le p hp).2

/-! ## C08: lookups -/

/-- **C08 (order_at, inside).** For `start < y`, `order_at(y)` is the order of the piece whose
half-open interval `(lo, hi]` contains `y`. -/
theorem C08_order_at (c : CurveOrder K) (h : WF c) (y : K) (hy : c.start < y) (o : Order) :
    c.orderAt y = some o ↔ ∃ p ∈ c.iter, p.lo < y ∧ y ≤ p.hi ∧ p.order = o := by
  simp only [CurveOrder.orderAt, Option.map_eq_some_iff]
  constructor
  · rintro ⟨p, hp, ho⟩
    obtain ⟨h1, h2, h3⟩ := (find_le_iff h.2 hy p).1 hp
    exact ⟨p, h1, h2, h3, ho⟩
  · rintro ⟨p, h1, h2, h3, ho⟩
    exact ⟨p, (find_le_iff h.2 hy p).2 ⟨h1, h2, h3⟩, ho⟩

/-- **C08 (order_at, failure).** `order_at(y)` panics iff `y` is past the end. (In particular it does
*not* panic for `y < start`, contrary to its doc comment; see `C08_order_at_before_start`.) -/
theorem C08_order_at_panics (c : CurveOrder K) (h : WF c) (E : K) (hE : EndsAt c E) (y : K) :
    c.orderAt y = none ↔ E < y := by
  simp only [CurveOrder.orderAt, Option.map_eq_none_iff, List.find?_eq_none, decide_eq_true_eq,
    not_le]
  constructor
  · intro hh
    obtain ⟨p, h1, h2⟩ := wf_last_mem hE
    rw [← h2]; exact hh p h1
  · intro hlt p hp
    have := wf_hi_le h hE p hp
    order

/-- **C08 (order_at at or before the start).** The order of the first piece is returned. -/
theorem C08_order_at_before_start (c : CurveOrder K) (h : WF c) (y : K) (hy : y ≤ c.start) :
    c.orderAt y = c.iter.head?.map Piece.order := by
  have h2 := h.2
  simp only [CurveOrder.orderAt]
  cases hi : c.iter with
  | nil => simp
  | cons p ps =>
    rw [hi] at h2
    obtain ⟨e1, e2⟩ := h2.head
    have : y ≤ p.hi := by order
    simp [this]

/-- **C08 (entry_at).** For `start ≤ y`, `entry_at(y)` is the piece with `lo ≤ y < hi`. -/
theorem C08_entry_at (c : CurveOrder K) (h : WF c) (y : K) (hy : c.start ≤ y) (p : Piece K) :
    c.entryAt y = some p ↔ p ∈ c.iter ∧ p.lo ≤ y ∧ y < p.hi :=
  find_lt_iff h.2 hy p

/-- **C08 (entry_at, failure).** `entry_at(y)` panics iff the range ends at or before `y`. -/
theorem C08_entry_at_panics (c : CurveOrder K) (h : WF c) (E : K) (hE : EndsAt c E) (y : K) :
    c.entryAt y = none ↔ E ≤ y := by
  simp only [CurveOrder.entryAt, List.find?_eq_none, decide_eq_true_eq, not_lt]
  constructor
  · intro hh
    obtain ⟨p, h1, h2⟩ := wf_last_mem hE
    rw [← h2]; exact hh p h1
  · intro hlt p hp
    have := wf_hi_le h hE p hp
    order

theorem mem_dropWhile_iff {c : CurveOrder K} (h : WF c) (y : K) (p : Piece K) :
    p ∈ c.iter.dropWhile (fun p => decide (p.hi ≤ y)) ↔ p ∈ c.iter ∧
      p ∈ c.iter.dropWhile (fun p => decide (p.hi ≤ y)) ∧ y < p.hi := by
  obtain ⟨as, h1, h2, h3⟩ := tiled_first c.iter (fun p => decide (p.hi ≤ y))
  constructor
  · intro hp
    refine ⟨by rw [h1]; simp [hp], hp, ?_⟩
    cases hd : c.iter.dropWhile (fun p => decide (p.hi ≤ y)) with
    | nil => rw [hd] at hp; simp at hp
    | cons q t =>
      have hq := h3 q t hd
      simp at hq
      rw [hd] at hp
      simp at hp
      rcases hp with rfl | hp
      · exact hq
      · have ht := h.2
        rw [h1, hd] at ht
        obtain ⟨s1, s2⟩ := ht.split.2.2.2 p hp
        order
  · rintro ⟨_, h, _⟩; exact h

/-- **C08 (order_after).** Before the end of the range, `order_after(y)` is the first definite order
among the pieces that end after `y`; all pieces before it that end after `y` are undetermined. -/
theorem C08_order_after_definite (c : CurveOrder K) (h : WF c) (E : K) (hE : EndsAt c E) (y : K)
    (hy : y ≠ E) (o : Order) (ho : o ≠ .ish) :
    c.orderAfter y = some o ↔ ∃ as p bs, c.iter = as ++ p :: bs ∧ y < p.hi ∧ p.order = o ∧
      ∀ a ∈ as, y < a.hi → a.order = .ish := by
  obtain ⟨l, hl1, hl2⟩ := hE
  subst hl2
  obtain ⟨cs, h1, h2, h3⟩ := tiled_first c.iter (fun p => decide (p.hi ≤ y))
  have hmem := mem_dropWhile_iff h y
  simp only [CurveOrder.orderAfter, hl1, hy, if_false, Option.some.injEq]
  generalize hD : c.iter.dropWhile (fun p => decide (p.hi ≤ y)) = D at *
  constructor
  · intro hm
    split at hm
    · exact absurd hm.symm ho
    · rename_i p hp
      rw [List.find?_eq_some_iff_append] at hp
      obtain ⟨g1, as, bs, rfl, g2⟩ := hp
      refine ⟨cs ++ as, p, bs, by rw [h1]; simp, ?_, hm, ?_⟩
      · exact ((hmem p).1 (by simp)).2.2
      · intro a ha hlt
        simp at ha
        rcases ha with ha | ha
        · have := h2 a ha; simp at this; exact absurd hlt (not_lt.2 this)
        · simpa using g2 a ha
  · rintro ⟨as, p, bs, e1, e2, e3, e4⟩
    -- p lies in the part after y
    have : D.find? (fun p => decide (p.order ≠ .ish)) = some p := by
      have hsplit := h1.symm.trans e1
      rcases List.append_eq_append_iff.1 hsplit with ⟨m, g1, g2⟩ | ⟨m, g1, g2⟩
      · rw [List.find?_eq_some_iff_append]
        refine ⟨by simp [e3, ho], m, bs, g2, ?_⟩
        intro a ha
        have hlt := ((hmem a).1 (by rw [g2]; simp [ha])).2.2
        simp [e4 a (by rw [g1]; simp [ha]) hlt]
      · cases m with
        | nil =>
          simp at g2
          rw [← g2]; simp [e3, ho]
        | cons q m =>
          simp at g2
          have := h2 q (by rw [g1]; simp)
          rw [← g2.1] at this
          simp at this
          exact absurd e2 (not_lt.2 this)
    rw [this]; exact e3

/-- **C08 (order_after).** It is undetermined iff every piece ending after `y` is. -/
theorem C08_order_after_ish (c : CurveOrder K) (h : WF c) (E : K) (hE : EndsAt c E) (y : K)
    (hy : y ≠ E) :
    c.orderAfter y = some .ish ↔ ∀ p ∈ c.iter, y < p.hi → p.order = .ish := by
  obtain ⟨l, hl1, hl2⟩ := hE
  subst hl2
  obtain ⟨cs, h1, h2, h3⟩ := tiled_first c.iter (fun p => decide (p.hi ≤ y))
  have hmem := mem_dropWhile_iff h y
  simp only [CurveOrder.orderAfter, hl1, hy, if_false, Option.some.injEq]
  generalize hD : c.iter.dropWhile (fun p => decide (p.hi ≤ y)) = D at *
  constructor
  · intro hm p hp hlt
    have hpD : p ∈ D := by
      rw [h1] at hp; simp at hp
      rcases hp with hp | hp
      · have := h2 p hp; simp at this; exact absurd hlt (not_lt.2 this)
      · exact hp
    split at hm
    · rename_i hn
      rw [List.find?_eq_none] at hn
      simpa using hn p hpD
    · rename_i q hq
      have := List.find?_some hq
      simp at this; exact absurd hm this
  · intro hh
    have : D.find? (fun p => decide (p.order ≠ .ish)) = none := by
      rw [List.find?_eq_none]
      intro p hp
      simp [hh p ((hmem p).1 hp).1 ((hmem p).1 hp).2.2]
    rw [this]

/-- **C08 (order_after at the end).** Exactly at the end the order of the last piece is returned. -/
theorem C08_order_after_end (c : CurveOrder K) (l : Entry K) (hl : c.cmps.getLast? = some l) :
    c.orderAfter l.stop = some l.order := by
  simp [CurveOrder.orderAfter, hl]

/-! ## C46: what a push records -/

/-- **C46 (as documented, partial).** Pushing `(e, o)` leaves the order at every covered height
unchanged, and makes the order `o` on the new part, *provided* the pushed order is not the opposite of
the last one. Missing: the left/right flip, see `C46_flip_is_undetermined`. -/
theorem C46_push_pointwise_partial (c : CurveOrder K) (h : WF c) (E : K) (hE : EndsAt c E) (e : K)
    (o : Order) (he : E ≤ e) (l : Entry K) (hl : c.cmps.getLast? = some l)
    (hno : ¬ Opposite l.order o) :
    ∃ c', c.push e o = some c' ∧ (∀ y, y ≤ E → c'.orderAt y = c.orderAt y) ∧
      (∀ y, E < y → y ≤ e → c'.orderAt y = some o) := by
  obtain ⟨as, l', h1, h2⟩ := wf_snoc h
  have : l' = l := by rw [hl] at h2; simpa using h2.symm
  subst this
  have hlE : l'.stop = E := by
    obtain ⟨l'', h3, h4⟩ := hE
    rw [h2] at h3; simp at h3; rw [h3]; exact h4
  have hnlt : ¬ e < l'.stop := by rw [hlE]; exact not_lt.2 he
  have hdl : c.cmps.dropLast = as := by rw [h1]; simp
  have hall : ∀ p ∈ pieces c.start as, p.hi ≤ E := by
    intro p hp; apply wf_hi_le h hE; rw [iter_snoc h1]; simp [hp]
  have same : l'.order = o → ∃ c', some (⟨c.start, c.cmps.dropLast ++ [⟨e, l'.order⟩]⟩ : CurveOrder K) = some c' ∧
      (∀ y, y ≤ E → c'.orderAt y = c.orderAt y) ∧ (∀ y, E < y → y ≤ e → c'.orderAt y = some o) := by
    intro hlo
    refine ⟨_, rfl, ?_, ?_⟩
    · intro y hy
      have g1 : y ≤ l'.stop := by order
      have g2 : y ≤ e := by order
      simp only [CurveOrder.orderAt, iter_snoc h1, List.find?_append]
      simp only [CurveOrder.iter, hdl, pieces_snoc, List.find?_append]
      cases (pieces c.start as).find? (fun p => decide (y ≤ p.hi)) with
      | none => simp [g1, g2]
      | some p => simp
    · intro y hy hye
      simp only [CurveOrder.orderAt, CurveOrder.iter, hdl, pieces_snoc, List.find?_append]
      have : (pieces c.start as).find? (fun p => decide (y ≤ p.hi)) = none := by
        rw [List.find?_eq_none]; intro p hp; have := hall p hp; simp; order
      simp [this, hye, hlo]
  have other : ∃ c', (if l'.stop < e then some (⟨c.start, c.cmps ++ [⟨e, o⟩]⟩ : CurveOrder K) else some c) = some c' ∧
      (∀ y, y ≤ E → c'.orderAt y = c.orderAt y) ∧ (∀ y, E < y → y ≤ e → c'.orderAt y = some o) := by
    split
    · refine ⟨_, rfl, ?_, ?_⟩
      · intro y hy
        have g1 : y ≤ l'.stop := by order
        simp only [CurveOrder.orderAt, iter_snoc h1, List.find?_append]
        simp only [CurveOrder.iter, h1, pieces_snoc, List.find?_append]
        cases (pieces c.start as).find? (fun p => decide (y ≤ p.hi)) with
        | none => simp [g1]
        | some p => simp
      · intro y hy hye
        simp only [CurveOrder.orderAt, CurveOrder.iter, h1, pieces_snoc, List.find?_append]
        have : (pieces c.start as).find? (fun p => decide (y ≤ p.hi)) = none := by
          rw [List.find?_eq_none]; intro p hp; have := hall p hp; simp; order
        have g3 : ¬ y ≤ l'.stop := by order
        simp [this, hye, g3]
    · refine ⟨c, rfl, fun _ _ => rfl, ?_⟩
      intro y h1 h2; exfalso; order
  simp only [CurveOrder.push, h2, hnlt, if_false]
  cases hlo : l'.order <;> cases o <;> simp only [hlo, Opposite] at *
  · exact same trivial
  · exact other
  · simp at hno
  · exact other
  · exact same trivial
  · exact other
  · simp at hno
  · exact other
  · exact same trivial

/-- **C46 (violated part).** When the pushed order is the opposite of the last one, the *whole* new
part becomes undetermined, not a zero-height piece as the code comment (curve/mod.rs:112-113) says;
the pushed order is recorded only with zero height. -/
theorem C46_flip_is_undetermined (c : CurveOrder K) (h : WF c) (E : K) (hE : EndsAt c E) (e : K)
    (o : Order) (he : E ≤ e) (l : Entry K) (hl : c.cmps.getLast? = some l)
    (hop : Opposite l.order o) :
    ∃ c', c.push e o = some c' ∧ (∀ y, E < y → y ≤ e → c'.orderAt y = some .ish) := by
  obtain ⟨as, l', h1, h2⟩ := wf_snoc h
  have : l' = l := by rw [hl] at h2; simpa using h2.symm
  subst this
  have hlE : l'.stop = E := by
    obtain ⟨l'', h3, h4⟩ := hE
    rw [h2] at h3; simp at h3; rw [h3]; exact h4
  have hnlt : ¬ e < l'.stop := by rw [hlE]; exact not_lt.2 he
  have key : ∃ c', some (⟨c.start, c.cmps ++ [⟨e, .ish⟩, ⟨e, o⟩]⟩ : CurveOrder K) = some c' ∧
      (∀ y, E < y → y ≤ e → c'.orderAt y = some .ish) := by
    refine ⟨_, rfl, ?_⟩
    intro y hy hye
    simp only [CurveOrder.orderAt, CurveOrder.iter, pieces_append, List.find?_append]
    have : (pieces c.start c.cmps).find? (fun p => decide (y ≤ p.hi)) = none := by
      rw [List.find?_eq_none]; intro p hp
      have := wf_hi_le h hE p hp; simp; order
    simp [this, pieces, hye]
  simp only [CurveOrder.push, h2, hnlt, if_false]
  rcases hop with ⟨h3, h4⟩ | ⟨h3, h4⟩ <;> simp only [h3, h4] at key ⊢ <;> exact key

/-! ## C09: flip -/

/-- **C09.** Flipping is an involution. -/
theorem C09_flip_flip (c : CurveOrder K) : c.flip.flip = c := by
  obtain ⟨s, es⟩ := c
  have : Entry.flip ∘ Entry.flip = (id : Entry K → Entry K) := by
    funext e; obtain ⟨k, o⟩ := e; cases o <;> rfl
  simp [CurveOrder.flip, this]

/-- **C09.** Flipping mirrors the order at every height (and fails on the same heights). -/
theorem C09_flip_order_at (c : CurveOrder K) (y : K) :
    c.flip.orderAt y = (c.orderAt y).map Order.flip := by
  simp only [CurveOrder.orderAt, CurveOrder.flip, CurveOrder.iter, pieces_flip, List.find?_map,
    Option.map_map]
  rfl

/-- **C09.** Flipping mirrors `entry_at`. -/
theorem C09_flip_entry_at (c : CurveOrder K) (y : K) :
    c.flip.entryAt y = (c.entryAt y).map fun p => ⟨p.lo, p.hi, p.order.flip⟩ := by
  simp only [CurveOrder.entryAt, CurveOrder.flip, CurveOrder.iter, pieces_flip, List.find?_map]
  rfl

/-- **C09.** Flipping mirrors `order_after`. -/
theorem C09_flip_order_after (c : CurveOrder K) (y : K) :
    c.flip.orderAfter y = (c.orderAfter y).map Order.flip := by
  have hish : ∀ o : Order, decide (¬ o.flip = .ish) = decide (¬ o = .ish) := by
    intro o; cases o <;> rfl
  simp only [CurveOrder.orderAfter, CurveOrder.flip, CurveOrder.iter, pieces_flip,
    List.getLast?_map]
  cases c.cmps.getLast? with
  | none => rfl
  | some l =>
    simp only [Option.map_some, Entry.flip]
    split
    · rfl
    · simp only [Option.map_some, List.dropWhile_map, List.find?_map, Option.some.injEq]
      have e2 : (fun p : Piece K => decide (p.order ≠ .ish)) ∘
          (fun p : Piece K => (⟨p.lo, p.hi, p.order.flip⟩ : Piece K))
          = fun p => decide (p.order ≠ .ish) := by
        funext p; exact hish p.order
      have e1 : (fun p : Piece K => decide (p.hi ≤ y)) ∘
          (fun p : Piece K => (⟨p.lo, p.hi, p.order.flip⟩ : Piece K))
          = fun p => decide (p.hi ≤ y) := rfl
      rw [e1, e2]
      cases List.find? (fun p : Piece K => decide (p.order ≠ .ish)) (List.dropWhile (fun p => decide (p.hi ≤ y)) (pieces c.start c.cmps)) <;> rfl

/-- **C09.** Flipping preserves well-formedness and the covered range. -/
theorem C09_flip_wf (c : CurveOrder K) (h : WF c) (E : K) (hE : EndsAt c E) :
    WF c.flip ∧ c.flip.start = c.start ∧ EndsAt c.flip E := by
  refine ⟨⟨by simpa [CurveOrder.flip] using h.1, ?_⟩, rfl, ?_⟩
  · simp only [CurveOrder.iter, CurveOrder.flip, pieces_flip]
    exact h.2.flip
  · obtain ⟨l, h1, h2⟩ := hE
    exact ⟨l.flip, by simp [CurveOrder.flip, h1], h2⟩

/-! ## C10: slop -/

/-- Unfolding of the main case of `with_y_slop`. -/
theorem withYSlop_main (down up : K → K) (hdown : ∀ x, down x ≤ x) (hup : ∀ x, x ≤ up x)
    (c : CurveOrder K) (h : WF c) (E : K) (hE : EndsAt c E) (hne : c.start < E) :
    ∃ c', c.withYSlop false down up = some c' ∧ WF c' ∧ c'.start = c.start ∧ EndsAt c' E ∧
      (∀ q, q.order ≠ .ish → (q ∈ c'.iter ↔
      ∃ p ∈ c.iter, Kept down up c.start E p ∧
        q = ⟨newLo up c.start p, newHi down E p, p.order⟩)) := by
  obtain ⟨l, hl1, hl2⟩ := id hE
  obtain ⟨i1, i2, i3, i4, i5⟩ := slopLoop_tiled down up c.start E hdown hup c.iter c.start c.start
    h.2 (le_refl _) (le_refl _) (le_refl _)
  have hEne : ¬ c.start = E := ne_of_lt hne
  simp only [CurveOrder.withYSlop, hl1, hl2, hEne, Bool.false_eq_true, if_false]
  generalize hr : CurveOrder.slopLoop down up c.start E c.iter = ret at *
  cases hlast : ret.getLast? with
  | none =>
    have : ret = [] := by simpa using hlast
    subst this
    simp only [if_true]
    refine ⟨_, rfl, ⟨by simp, ?_⟩, rfl, ⟨⟨E, .ish⟩, by simp, rfl⟩, ?_⟩
    · simp only [CurveOrder.iter, List.nil_append, pieces, Tiled]
      exact ⟨trivial, le_of_lt hne⟩
    · intro q hq
      rw [← i4 q hq]
      simp [CurveOrder.iter, pieces]
      intro h0; rw [h0] at hq; exact hq rfl
  | some r =>
    have hret : ret ≠ [] := by intro h0; rw [h0] at hlast; simp at hlast
    obtain ⟨as, rfl⟩ : ∃ as, ret = as ++ [r] := by
      rw [List.getLast?_eq_some_iff] at hlast; exact hlast
    have hlp : (pieces c.start (as ++ [r])).getLast? =
        some ⟨((as.getLast?).map Entry.stop).getD c.start, r.stop, r.order⟩ := by
      rw [pieces_snoc]; simp
    by_cases hs : r.stop = E
    · simp only [hs, ne_eq, not_true_eq_false, decide_false, Bool.false_eq_true, if_false]
      exact ⟨_, rfl, ⟨hret, i1⟩, rfl, ⟨r, by simp, hs⟩, i4⟩
    · simp only [hs, ne_eq, not_false_eq_true, decide_true, if_true]
      refine ⟨_, rfl, ⟨by simp, ?_⟩, rfl, ⟨⟨E, .ish⟩, by simp, rfl⟩, ?_⟩
      · simp only [CurveOrder.iter]
        rw [pieces_snoc]
        refine Tiled.snoc i1 ?_ ?_ ?_
        · simp
          obtain ⟨p, hp1, hp2⟩ := i5 _ (List.mem_of_getLast? hlp)
          have := wf_hi_le h hE p hp1
          simp at hp2
          order
        · intro p hp
          rw [hlp] at hp
          have := i2 _ hlp
          simp at hp
          rw [← hp]
          simp [Adj]
          exact this
        · intro h0; rw [pieces_eq_nil] at h0; simp at h0
      · intro q hq
        rw [← i4 q hq]
        simp only [CurveOrder.iter]
        rw [pieces_snoc]
        simp only [List.mem_append, List.mem_singleton]
        constructor
        · rintro (h1 | h1)
          · exact h1
          · rw [h1] at hq; simp at hq
        · exact .inl

/-- **C10 (well-formedness and range).** Widening never panics on a well-formed comparison, keeps it
well-formed and keeps the covered range. `down`/`up` are `· - slop`/`· + slop` (possibly rounded). -/
theorem C10_slop_wf (isZero : Bool) (down up : K → K) (hdown : ∀ x, down x ≤ x)
    (hup : ∀ x, x ≤ up x) (c : CurveOrder K) (h : WF c) (E : K) (hE : EndsAt c E) :
    ∃ c', c.withYSlop isZero down up = some c' ∧ WF c' ∧ c'.start = c.start ∧ EndsAt c' E := by
  cases isZero with
  | true => exact ⟨c, by simp [CurveOrder.withYSlop], h, rfl, hE⟩
  | false =>
    by_cases hs : c.start = E
    · obtain ⟨l, hl1, hl2⟩ := id hE
      exact ⟨c, by simp [CurveOrder.withYSlop, hl1, hl2, hs], h, rfl, hE⟩
    · have hle : c.start ≤ E := by
        obtain ⟨p, hp, e⟩ := wf_last_mem hE
        obtain ⟨g1, g2⟩ := h.2.lo_le p hp
        order
      obtain ⟨c', h1, h2, h3, h4, _⟩ := withYSlop_main down up hdown hup c h E hE (lt_of_le_of_ne hle hs)
      exact ⟨c', h1, h2, h3, h4⟩

/-- **C10 (exact meaning).** After widening by a non-zero slop, a height `y` inside the range is
definitely ordered `o` iff every original piece that meets the window from `y - slop` to `y + slop`
(inside the range) is ordered `o`: a piece `[lo, hi]` meets the window when `y ≤ hi + slop` and
`lo - slop < y`. -/
theorem C10_slop_meaning (down up : K → K) (hdown : ∀ x, down x ≤ x)
    (hup : ∀ x, x ≤ up x) (mdown : ∀ x y, x ≤ y → down x ≤ down y)
    (mup : ∀ x y, x ≤ y → up x ≤ up y) (c : CurveOrder K) (h : WF c) (E : K) (hE : EndsAt c E)
    (y : K) (hy : c.start < y) (hyE : y ≤ E) (o : Order) (ho : o ≠ .ish) :
    ∃ c', c.withYSlop false down up = some c' ∧
      (c'.orderAt y = some o ↔
        ∀ p ∈ c.iter, c.start < p.hi → p.lo < E → y ≤ up p.hi → down p.lo < y → p.order = o) := by
  have hne : c.start < E := lt_of_lt_of_le hy hyE
  obtain ⟨c', h1, h2, h3, h4, h5⟩ := withYSlop_main down up hdown hup c h E hE hne
  refine ⟨c', h1, ?_⟩
  rw [C08_order_at c' h2 y (by rw [h3]; exact hy)]
  constructor
  · rintro ⟨q, hq, hq1, hq2, hq3⟩
    have hq' := (h5 q (by rw [hq3]; exact ho)).1 hq
    obtain ⟨p, hp, hk, rfl⟩ := hq'
    simp only at hq1 hq2 hq3
    obtain ⟨as, bs, e⟩ := List.append_of_mem hp
    have ht := h.2
    rw [e] at ht
    obtain ⟨s1, s2, s3, s4⟩ := ht.split
    intro p' hp' g1 g2 g3 g4
    rw [e] at hp'
    simp at hp'
    rcases hp' with hp' | rfl | hp'
    · exfalso
      obtain ⟨t1, t2, t3⟩ := s1 p' hp'
      unfold newLo at hq1
      split at hq1
      · order
      · have := mup _ _ t3; order
    · exact hq3
    · exfalso
      obtain ⟨t1, t2⟩ := s4 p' hp'
      unfold newHi at hq2
      split at hq2
      · order
      · have := mdown _ _ t1; order
  · intro hall
    obtain ⟨p, hp, hp1, hp2⟩ := h.2.exists_piece hy
      (by obtain ⟨p, hp, e⟩ := wf_last_mem hE; exact ⟨p, hp, le_of_eq e.symm⟩) hyE
    have d1 := hdown p.lo
    have u1 := hup p.hi
    have hpo : p.order = o := hall p hp (by order) (by order) (by order) (by order)
    obtain ⟨as, bs, e⟩ := List.append_of_mem hp
    have ht := h.2
    rw [e] at ht
    have hlo : newLo up c.start p < y := by
      unfold newLo
      split
      · exact hp1
      · rename_i hns
        rcases ht.prev with ⟨_, e2⟩ | ⟨as', a, rfl, e2⟩
        · contradiction
        · by_contra hcon
          have ha : a ∈ c.iter := by rw [e]; simp
          have hadj : Adj a p := by
            have : Tiled c.start (as' ++ a :: p :: bs) := by simpa using ht
            exact this.adj
          have b1 := (h.2.lo_le a ha)
          obtain ⟨b1, b2⟩ := b1
          have b3 := hdown a.lo
          have b4 := (h.2.lo_le p hp).1
          have := hall a ha (by order) (by order) (by rw [e2]; order) (by order)
          exact hadj.2.1 (by rw [this, hpo])
    have hhi : y ≤ newHi down E p := by
      unfold newHi
      split
      · exact hp2
      · rename_i hns
        cases bs with
        | nil =>
          exfalso
          obtain ⟨l, hl1, hl2⟩ := endsAt_last hE
          rw [e] at hl1; simp at hl1; rw [hl1] at hns; exact hns hl2
        | cons b bs =>
          by_contra hcon
          have hb : b ∈ c.iter := by rw [e]; simp
          have hadj := ht.adj
          obtain ⟨b1, b2⟩ := h.2.lo_le b hb
          have b3 := hup b.hi
          have b5 := wf_hi_le h hE p hp
          have e3 := hadj.1
          have := hall b hb (by order) (by order) (by order) (by rw [← e3]; order)
          exact hadj.2.1 (by rw [this, hpo])
    refine ⟨⟨newLo up c.start p, newHi down E p, p.order⟩, ?_, hlo, hhi, hpo⟩
    exact (h5 _ (by simp [hpo, ho])).2 ⟨p, hp, ⟨by rw [hpo]; exact ho, by order⟩, rfl⟩

/-- **C10 (widening never invents an order).** -/
theorem C10_slop_conservative (down up : K → K) (hdown : ∀ x, down x ≤ x)
    (hup : ∀ x, x ≤ up x) (mdown : ∀ x y, x ≤ y → down x ≤ down y)
    (mup : ∀ x y, x ≤ y → up x ≤ up y) (c c' : CurveOrder K) (h : WF c) (E : K) (hE : EndsAt c E)
    (y : K) (hy : c.start < y) (hyE : y ≤ E) (o : Order) (ho : o ≠ .ish)
    (hc' : c.withYSlop false down up = some c') (hoy : c'.orderAt y = some o) :
    c.orderAt y = some o := by
  obtain ⟨c'', h1, h2⟩ := C10_slop_meaning down up hdown hup mdown mup c h E hE y hy hyE o ho
  rw [hc'] at h1; simp at h1; subst h1
  have hall := h2.1 hoy
  obtain ⟨p, hp, hp1, hp2⟩ := h.2.exists_piece hy
    (by obtain ⟨p, hp, e⟩ := wf_last_mem hE; exact ⟨p, hp, le_of_eq e.symm⟩) hyE
  have d1 := hdown p.lo
  have u1 := hup p.hi
  exact (C08_order_at c h y hy o).2 ⟨p, hp, hp1, hp2, hall p hp (by order) (by order) (by order) (by order)⟩

/-! ## C11, C47: next touch -/

/-- What a result of `next_touch_after(y)` promises. -/
def TouchSpec (mid : K → K → K) (c : CurveOrder K) (y : K) : Option (Interaction K) → Prop
  -- never: no (positive-height) piece ending after `y` has our curve on the right
  | none => ∀ p ∈ c.iter, p.lo < p.hi → y < p.hi → p.order ≠ .right
  -- crossing: the right-ordered piece `p` is the first one after `y`; and the reported height is the
  -- middle of the undetermined piece just before it, or a height (`y` itself or the start of `p`) just after
  -- which `p` rules
  | some (.cross z) => ∃ as p bs, c.iter = as ++ p :: bs ∧ p.order = .right ∧ y < p.hi ∧
      (∀ a ∈ as, a.lo < a.hi → y < a.hi → a.order ≠ .right) ∧
      ((∃ as' q, as = as' ++ [q] ∧ q.order = .ish ∧ y < q.hi ∧ z = mid q.lo q.hi) ∨
       (y ≤ z ∧ z < p.hi ∧ (∀ a ∈ as, a.hi ≤ z) ∧ (z = y ∨ z = p.lo)))
  -- touch: an undetermined piece starting strictly after `y`, left-ordered just after, with no
  -- right-ordered piece between `y` and it; the reported height is its middle
  | some (.touch z) => ∃ as p q bs, c.iter = as ++ p :: q :: bs ∧ p.order = .ish ∧
      q.order = .left ∧ y < p.lo ∧ z = mid p.lo p.hi ∧
      ∀ a ∈ as, a.lo < a.hi → y < a.hi → a.order ≠ .right

theorem count_lt {ps : List (Piece K)} {y y' : K} (hyy : y ≤ y') {q : Piece K} (hq : q ∈ ps)
    (h1 : y < q.hi) (h2 : q.hi ≤ y') :
    ps.countP (fun p => decide (y' < p.hi)) < ps.countP (fun p => decide (y < p.hi)) := by
  induction ps with
  | nil => simp at hq
  | cons p ps ih =>
    have mono : ∀ l : List (Piece K), l.countP (fun p => decide (y' < p.hi)) ≤
        l.countP (fun p => decide (y < p.hi)) := by
      intro l; apply List.countP_mono_left; intro x _ hx; simp at hx ⊢; order
    simp only [List.countP_cons]
    simp at hq
    rcases hq with rfl | hq
    · have := mono ps
      have g1 : ¬ y' < q.hi := not_lt.2 h2
      simp [h1, g1]; omega
    · have := ih hq
      by_cases hp : y' < p.hi
      · have : y < p.hi := by order
        simp [hp, this]; omega
      · simp [hp]; omega

/-- **C11.** On a well-formed comparison `next_touch_after` terminates, never reaches
`unreachable!()`, and its answer satisfies `TouchSpec`. -/
theorem C11_next_touch (mid : K → K → K) (c : CurveOrder K) (h : WF c) (y : K) (fuel : Nat)
    (hf : c.cmps.length < fuel) :
    ∃ r, c.nextTouchAfter mid fuel y = some r ∧ TouchSpec mid c y r := by
  have hlen : c.iter.countP (fun p => decide (y < p.hi)) < fuel := by
    have := List.countP_le_length (l := c.iter) (p := fun p => decide (y < p.hi))
    rw [CurveOrder.iter, pieces_length] at this
    rw [CurveOrder.iter]; omega
  clear hf
  induction fuel generalizing y with
  | zero => omega
  | succ fuel ih =>
    obtain ⟨cs, h1, h2, h3⟩ := tiled_first c.iter (fun p => decide (p.hi ≤ y))
    have hmem := mem_dropWhile_iff h y
    simp only [CurveOrder.nextTouchAfter]
    generalize hD : c.iter.dropWhile (fun p => decide (p.hi ≤ y)) = D at *
    obtain ⟨ls, g1, g2, g3⟩ := tiled_first D (fun p => decide (p.order = .left))
    generalize hM : D.dropWhile (fun p => decide (p.order = .left)) = M at *
    have hcs : ∀ a ∈ cs, a.hi ≤ y := fun a ha => by simpa using h2 a ha
    have hls : ∀ a ∈ ls, a.order = .left := fun a ha => by simpa using g2 a ha
    have hD' : ∀ p ∈ D, y < p.hi := fun p hp => ((hmem p).1 hp).2.2
    rw [g1] at h1
    cases M with
    | nil =>
      refine ⟨none, rfl, ?_⟩
      intro p hp _ hlt
      rw [h1] at hp; simp at hp
      rcases hp with hp | hp
      · exact absurd hlt (not_lt.2 (hcs p hp))
      · simp [hls p hp]
    | cons p rest =>
      have hpy : y < p.hi := hD' p (by rw [g1]; simp)
      have hpl : p.order ≠ .left := by simpa using g3 p rest rfl
      by_cases hpr : p.order = .right
      · simp only [hpr, if_true]
        -- then nothing left-ordered was skipped
        have hlsnil : ls = [] := by
          by_contra hne
          obtain ⟨ls', a, rfl⟩ : ∃ ls' a, ls = ls' ++ [a] :=
            ⟨ls.dropLast, ls.getLast hne, (List.dropLast_concat_getLast hne).symm⟩
          have ht := h.2
          have e : c.iter = (cs ++ ls') ++ a :: p :: rest := by rw [h1]; simp
          rw [e] at ht
          have hadj := ht.adj.2.2
          rw [hls a (by simp), hpr] at hadj
          simp at hadj
        subst hlsnil
        refine ⟨_, rfl, cs, p, rest, by rw [h1]; simp, hpr, hpy, ?_, .inr ⟨le_refl _, hpy, hcs, .inl rfl⟩⟩
        intro a ha _ hlt
        exact absurd hlt (not_lt.2 (hcs a ha))
      · simp only [hpr, if_false]
        have hpi : p.order = .ish := by
          cases ho : p.order with
          | ish => rfl
          | left => exact absurd ho hpl
          | right => exact absurd ho hpr
        cases rest with
        | nil =>
          refine ⟨none, rfl, ?_⟩
          intro p' hp' _ hlt
          rw [h1] at hp'; simp at hp'
          rcases hp' with hp' | hp' | rfl
          · exact absurd hlt (not_lt.2 (hcs p' hp'))
          · simp [hls p' hp']
          · exact hpr
        | cons q bs =>
          have ht := h.2
          have e : c.iter = (cs ++ ls) ++ p :: q :: bs := by rw [h1]; simp
          rw [e] at ht
          have hadj := ht.adj
          have nor : ∀ a ∈ cs ++ ls, y < a.hi → a.order = .left := by
            intro a ha hlt
            simp at ha
            rcases ha with ha | ha
            · exact absurd hlt (not_lt.2 (hcs a ha))
            · exact hls a ha
          cases hqo : q.order with
          | ish => exact absurd (by rw [hpi, hqo]) hadj.2.1
          | right =>
            simp only [hqo]
            refine ⟨_, rfl, cs ++ ls ++ [p], q, bs, by rw [e]; simp, hqo, ?_, ?_,
              .inl ⟨cs ++ ls, p, rfl, hpi, hpy, rfl⟩⟩
            · exact hD' q (by rw [g1]; simp)
            · intro a ha _ hlt
              simp only [List.mem_append, List.mem_singleton] at ha
              rcases ha with ha | rfl
              · simp [nor a (by simpa using ha) hlt]
              · exact hpr
          | left =>
            simp only [hqo]
            by_cases hylo : y < p.lo
            · rw [if_pos hylo]
              exact ⟨_, rfl, cs ++ ls, p, q, bs, e, hpi, hqo, hylo, rfl,
                fun a ha _ hlt => by simp [nor a ha hlt]⟩
            · rw [if_neg hylo]
              have hqy : y < q.hi := hD' q (by rw [g1]; simp)
              have hqm : q ∈ c.iter := by rw [e]; simp
              have hcl := count_lt (le_of_lt hqy) hqm hqy (le_refl _)
              obtain ⟨r, hr1, hr2⟩ := ih q.hi (by omega)
              refine ⟨r, hr1, ?_⟩
              -- pieces ending in (y, q.hi] are not right-ordered (unless of zero height)
              have hsplit := ht.split
              have upto : ∀ a ∈ c.iter, a.lo < a.hi → y < a.hi → a.hi ≤ q.hi → a.order ≠ .right := by
                intro a ha hpos hlt hle
                rw [e] at ha
                simp only [List.mem_append, List.mem_cons] at ha
                have h5 : Tiled c.start ((cs ++ ls ++ [p]) ++ q :: bs) := by simpa using ht
                rcases ha with ha | rfl | rfl | ha
                · simp [nor a (by simpa using ha) hlt]
                · exact hpr
                · simp [hqo]
                · obtain ⟨s1, s2⟩ := h5.split.2.2.2 a ha
                  exfalso; order
              match r, hr2 with
              | none, hr2 =>
                intro a ha hpos hlt
                by_cases hle : a.hi ≤ q.hi
                · exact upto a ha hpos hlt hle
                · exact hr2 a ha hpos (by order)
              | some (.cross z), hr2 =>
                obtain ⟨as', p', bs', e', k1, k2, k3, k4⟩ := hr2
                refine ⟨as', p', bs', e', k1, by order, ?_, ?_⟩
                · intro a ha hpos hlt
                  by_cases hle : a.hi ≤ q.hi
                  · exact upto a (by rw [e']; simp [ha]) hpos hlt hle
                  · exact k3 a ha hpos (by order)
                · rcases k4 with ⟨as'', q', m1, m2, m3, m4⟩ | ⟨m1, m2, m3, m5⟩
                  · exact .inl ⟨as'', q', m1, m2, by order, m4⟩
                  · refine .inr ⟨by order, m2, m3, .inr ?_⟩
                    rcases m5 with rfl | m5
                    · have ht' := h.2
                      rw [e'] at ht'
                      have hqa : q ∈ as' := by
                        have := hqm
                        rw [e'] at this
                        rcases List.mem_append.1 this with h7 | h7
                        · exact h7
                        · rcases List.mem_cons.1 h7 with h7 | h7
                          · rw [h7, k1] at hqo; cases hqo
                          · have := ht'.split.2.2.2 q h7
                            exfalso; order
                      have hq1 := (ht'.split.1 q hqa).2.2
                      rcases ht'.prev with ⟨h7, _⟩ | ⟨as2, a2, h7, h8⟩
                      · rw [h7] at hqa; simp at hqa
                      · have := m3 a2 (by rw [h7]; simp)
                        order
                    · exact m5
              | some (.touch z), hr2 =>
                obtain ⟨as', p', q', bs', e', k1, k2, k3, k4, k5⟩ := hr2
                refine ⟨as', p', q', bs', e', k1, k2, by order, k4, ?_⟩
                intro a ha hpos hlt
                by_cases hle : a.hi ≤ q.hi
                · exact upto a (by rw [e']; simp [ha]) hpos hlt hle
                · exact k5 a ha hpos (by order)

/-- The comparison `1: undetermined, 2: left, 3: undetermined, 4: left` on `[0,4]`. -/
def touchyOrder : CurveOrder Nat := ⟨0, [⟨1, .ish⟩, ⟨2, .left⟩, ⟨3, .ish⟩, ⟨4, .left⟩]⟩

theorem touchyOrder_wf : WF touchyOrder := by
  refine ⟨by simp [touchyOrder], ?_⟩
  simp [touchyOrder, CurveOrder.iter, pieces, Tiled, Adj]

/-- **C47 (violated in general).** Although the two curves touch in `[2,3]` (left-ordered just before
and just after), a search started at height 0, inside an undetermined piece, answers "never", because
the search restarts from the *end* of the left-ordered piece (curve/mod.rs:174-177). -/
theorem C47_touch_missed :
    ∃ c : CurveOrder Nat, WF c ∧ (∃ as a p q bs, c.iter = as ++ a :: p :: q :: bs ∧
      a.order = .left ∧ p.order = .ish ∧ q.order = .left ∧ 0 < a.lo ∧ p.lo < p.hi) ∧
      ∀ fuel, 3 ≤ fuel → c.nextTouchAfter (fun a b => (a + b) / 2) fuel 0 = some none := by
  refine ⟨touchyOrder, touchyOrder_wf, ⟨[⟨0, 1, .ish⟩], ⟨1, 2, .left⟩, ⟨2, 3, .ish⟩, ⟨3, 4, .left⟩, [],
    rfl, rfl, rfl, rfl, by decide, by decide⟩, ?_⟩
  intro fuel hf
  obtain ⟨n, rfl⟩ : ∃ n, fuel = n + 3 := ⟨fuel - 3, by omega⟩
  simp [CurveOrder.nextTouchAfter, touchyOrder, CurveOrder.iter, pieces]

/-- **C47 (partial).** If at (just after) `y` our curve is definitely on the left, then the very next
undetermined piece that is followed by another one is reported: as a touch if left-ordered after it,
as a crossing if right-ordered. Missing: `y` inside an undetermined piece, see `C47_touch_missed`. -/
theorem C47_next_touch_complete_partial (mid : K → K → K) (c : CurveOrder K) (h : WF c) (y : K)
    (as : List (Piece K)) (a p q : Piece K) (bs : List (Piece K))
    (e : c.iter = as ++ a :: p :: q :: bs) (has : ∀ x ∈ as, x.hi ≤ y) (hy : y < a.hi)
    (hao : a.order = .left) (hpo : p.order = .ish) (fuel : Nat) :
    (q.order = .left → c.nextTouchAfter mid (fuel + 1) y = some (some (.touch (mid p.lo p.hi)))) ∧
    (q.order = .right → c.nextTouchAfter mid (fuel + 1) y = some (some (.cross (mid p.lo p.hi)))) ∧
    (q.order = .left ∨ q.order = .right) := by
  have ht := h.2
  rw [e] at ht
  have hadj := ht.adj
  have ht2 : Tiled c.start ((as ++ [a]) ++ p :: q :: bs) := by simpa using ht
  have hadj2 := ht2.adj
  have hylo : y < p.lo := by rw [← hadj.1]; exact hy
  have hd : (c.iter.dropWhile (fun p => decide (p.hi ≤ y))).dropWhile
      (fun p => decide (p.order = .left)) = p :: q :: bs := by
    have h1 : c.iter.dropWhile (fun p => decide (p.hi ≤ y)) = a :: p :: q :: bs := by
      rw [e, List.dropWhile_append_of_pos (by intro x hx; simpa using has x hx)]
      rw [List.dropWhile_cons_of_neg (by simpa using hy)]
    rw [h1, List.dropWhile_cons_of_pos (by simpa using hao), List.dropWhile_cons_of_neg (by simp [hpo])]
  simp only [CurveOrder.nextTouchAfter, hd, hpo]
  refine ⟨?_, ?_, ?_⟩
  · intro hq; simp [hq, hylo]
  · intro hq; simp [hq]
  · cases hq : q.order with
    | left => simp
    | right => simp
    | ish => exact absurd (by rw [hpo, hq]) hadj2.2.1

/-! ## Non-vacuity: concrete comparisons meeting the hypotheses -/

/-- left on `[0,10]`, undetermined on `[10,20]`, right on `[20,30]`. -/
def sampleOrder : CurveOrder Nat := ⟨0, [⟨10, .left⟩, ⟨20, .ish⟩, ⟨30, .right⟩]⟩

theorem sampleOrder_wf : WF sampleOrder ∧ EndsAt sampleOrder 30 := by
  refine ⟨⟨by simp [sampleOrder], ?_⟩, ⟨⟨30, .right⟩, by simp [sampleOrder], rfl⟩⟩
  simp [sampleOrder, CurveOrder.iter, pieces, Tiled, Adj]

/-- C07: the sample is what a history of pushes builds. -/
example : pushAll (CurveOrder.new 0) [(10, .left), (20, .ish), (25, .right), (30, .right)] =
    some sampleOrder ∧ Ascending 0 [(10, Order.left), (20, .ish), (25, .right), (30, .right)] := by
  refine ⟨by decide, by simp [Ascending]⟩

/-- C07, C46: a push meeting the hypotheses, and a flip. -/
example : ∃ c', sampleOrder.push 40 .ish = some c' ∧ WF c' ∧ c'.start = 0 ∧ EndsAt c' 40 :=
  C07_push sampleOrder sampleOrder_wf.1 30 sampleOrder_wf.2 40 .ish (by decide)
example : ∃ c', sampleOrder.push 40 .left = some c' ∧ (∀ y, 30 < y → y ≤ 40 → c'.orderAt y = some .ish) :=
  C46_flip_is_undetermined sampleOrder sampleOrder_wf.1 30 sampleOrder_wf.2 40 .left (by decide)
    ⟨30, .right⟩ rfl (by simp [Opposite])
example : ∃ c', sampleOrder.push 40 .ish = some c' ∧ (∀ y, y ≤ 30 → c'.orderAt y = sampleOrder.orderAt y) ∧
    (∀ y, 30 < y → y ≤ 40 → c'.orderAt y = some .ish) :=
  C46_push_pointwise_partial sampleOrder sampleOrder_wf.1 30 sampleOrder_wf.2 40 .ish (by decide)
    ⟨30, .right⟩ rfl (by simp [Opposite])

/-- C08: lookups. -/
example : sampleOrder.orderAt 10 = some .left ∧ sampleOrder.orderAfter 10 = some .right ∧
    sampleOrder.entryAt 10 = some ⟨10, 20, .ish⟩ ∧ sampleOrder.orderAt 31 = none := by decide

/-- C09. -/
example : sampleOrder.flip.orderAt 5 = some .right := by decide

/-- C10: slop 2 keeps `left` up to 8 and `right` from 22. -/
example : sampleOrder.withYSlop false (· - 2) (· + 2) =
    some ⟨0, [⟨8, .left⟩, ⟨22, .ish⟩, ⟨30, .right⟩]⟩ := by decide
example : (∀ x : Nat, x - 2 ≤ x) ∧ (∀ x : Nat, x ≤ x + 2) ∧ (∀ x y : Nat, x ≤ y → x - 2 ≤ y - 2) ∧
    (∀ x y : Nat, x ≤ y → x + 2 ≤ y + 2) := by
  refine ⟨?_, ?_, ?_, ?_⟩ <;> intros <;> omega

/-- C11, C47: a crossing and a touch. -/
example : sampleOrder.nextTouchAfter (fun a b => (a + b) / 2) 4 5 = some (some (.cross 15)) := by decide
example : touchyOrder.nextTouchAfter (fun a b => (a + b) / 2) 5 1 = some (some (.touch 2)) := by decide

end Verif.Curve
