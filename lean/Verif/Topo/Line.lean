import Verif.Topo.LoopStep

/-! One range of a sweep line, and the invariant that holds between ranges. -/

namespace Verif.Topo
open Verif.Range
set_option linter.unusedSectionVars false

variable {K : Type} [LinearOrder K] {W : Type} [AddCommGroup W]

theorem processLoop_eq (single : Nat → Bool → W) (orient : Nat → Bool) (y : K) (s : LoopState K W) :
    processLoop single orient y s =
      match s.r.x with
      | none => some s
      | some x =>
        match processPoint single orient y x s with
        | none => none
        | some s' => processLoop single orient y s' := by
  rw [processLoop]
  split
  · rename_i h; rw [h]
  · rename_i x h; rw [h]
    split <;> rename_i h2 <;> simp only [h2]

theorem loop_spec (single : Nat → Bool → W) (orient : Nat → Bool) (hsingle : ∀ s b, single s (!b) = - single s b)
    (y : K) (E Eo En : List (OutputEvent K)) (hspec : RangeSpec (contribOf single orient) E Eo En)
    (t0 : Topo K W) (w0 wEnd : W) (sw0 : Option Nat) (hg0 : Good single t0)
    (h0 : ∀ e ∈ E, e.connectedAbove = true → ∃ o, t0.openSegs e.segIdx = [o] ∧ t0.positive o = orient e.segIdx)
    (hstart : ∀ e ∈ E, e.connectedAbove = true → ∃ p b, t0.pointIdx ⟨(t0.openSegs e.segIdx).headD 0, true⟩ = some p ∧
      t0.points[p]? = some b ∧ b.2 < y) :
    ∀ (k : Nat) (cur : WithBot K) (s : LoopState K W) (hOf nOf : Nat → Nat), s.r.size ≤ k →
    LInv single orient y E Eo En t0 w0 wEnd sw0 cur s hOf nOf →
    ∃ s' cur' hOf' nOf', processLoop single orient y s = some s' ∧ s'.r.x = none ∧
      LInv single orient y E Eo En t0 w0 wEnd sw0 cur' s' hOf' nOf' := by
  intro k
  induction k with
  | zero =>
    intro cur s hOf nOf hk h
    rw [processLoop_eq]
    cases hx : s.r.x with
    | none => exact ⟨s, cur, hOf, nOf, rfl, hx, h⟩
    | some x =>
      have := size_step s.r x hx
      omega
  | succ k ih =>
    intro cur s hOf nOf hk h
    rw [processLoop_eq]
    cases hx : s.r.x with
    | none => exact ⟨s, cur, hOf, nOf, rfl, hx, h⟩
    | some x =>
      obtain ⟨s', hOf', nOf', hp, h'⟩ := step single orient hsingle y E Eo En hspec t0 w0 wEnd sw0 hg0 h0 hstart cur s hOf nOf h x hx
      simp only [hp]
      refine ih x s' hOf' nOf' ?_ h'
      rw [processPoint_r single orient y x s s' hp, increaseX_eq _ x hx]
      have := size_step s.r x hx
      simp only [SLRange.size] at this hk ⊢
      omega

/-! ## The invariant between ranges -/

/-- The events of segment `s`, in order. -/
def evs (hist : List (K × OutputEvent K)) (s : Nat) : List (K × OutputEvent K) :=
  hist.filter fun p => decide (p.2.segIdx = s)

/-- Output segment `i` leaves event `e` at height `y` downwards: it starts at `(e.x1, y)`, belongs to the same
input segment, has its orientation, ends (if it has ended) strictly below, and the region on its west side is
the region to the east of its scan-west neighbour. -/
def Vert (orient : Nat → Bool) (t : Topo K W) (y : K) (e : OutputEvent K) (i : Nat) : Prop :=
  e.connectedBelow = true ∧ t.origSeg i = e.segIdx ∧ t.positive i = orient e.segIdx ∧ WestOk t i ∧
  (∃ p, t.pointIdx ⟨i, true⟩ = some p ∧ t.points[p]? = some (e.x1, y)) ∧
  ∀ q, t.pointIdx ⟨i, false⟩ = some q → ∃ b, t.points[q]? = some b ∧ y < b.2

/-- `x` and `y` follow each other in the list. -/
def Consec (l : List Nat) (x y : Nat) : Prop := ∃ l1 l2, l = l1 ++ x :: y :: l2

theorem consec_append (A R : List Nat) (x y : Nat) :
    Consec (A ++ R) x y ↔ Consec A x y ∨ (A.getLast? = some x ∧ R.head? = some y) ∨ Consec R x y := by
  constructor
  · rintro ⟨l1, l2, h⟩
    rw [List.append_eq_append_iff] at h
    rcases h with ⟨l, h1, h2⟩ | ⟨l, h1, h2⟩
    · exact .inr (.inr ⟨l, l2, h2⟩)
    · cases l with
      | nil => exact .inr (.inr ⟨[], l2, by simpa using h2.symm⟩)
      | cons a l =>
        rw [List.cons_append, List.cons.injEq] at h2
        obtain ⟨rfl, h2⟩ := h2
        cases l with
        | nil => exact .inr (.inl ⟨by rw [h1]; simp, by rw [← List.nil_append R, ← h2]; rfl⟩)
        | cons b l =>
          rw [List.cons_append, List.cons.injEq] at h2
          obtain ⟨rfl, h2⟩ := h2
          exact .inl ⟨l1, l, h1⟩
  · rintro (⟨l1, l2, h⟩ | ⟨h1, h2⟩ | ⟨l1, l2, h⟩)
    · exact ⟨l1, l2 ++ R, by rw [h]; simp⟩
    · obtain ⟨l1, rfl⟩ := List.getLast?_eq_some_iff.1 h1
      cases R with
      | nil => simp at h2
      | cons b R =>
        have : b = y := by simpa using h2
        subst this
        exact ⟨l1, R, by simp⟩
    · exact ⟨A ++ l1, l2, by rw [h]; simp⟩

theorem Consec.mem {l : List Nat} {x y : Nat} (h : Consec l x y) : x ∈ l ∧ y ∈ l := by
  obtain ⟨l1, l2, rfl⟩ := h
  simp

/-- The invariant: `hist` are the events so far, `line` the current sweep line (processed ranges replaced by
their new order). -/
structure LineInv (single : Nat → Bool → W) (orient : Nat → Bool) (hist : List (K × OutputEvent K))
    (line : List Nat) (t : Topo K W) : Prop where
  good : Good single t
  nodup : line.Nodup
  openIn : ∀ s ∈ line, ∃ o y e l, t.openSegs s = [o] ∧ evs hist s = l ++ [(y, e)] ∧ Vert orient t y e o
  openOut : ∀ s, s ∉ line → t.openSegs s = [] ∧ ∀ p ∈ (evs hist s).getLast?, p.2.connectedBelow = false
  walk : WLine t.winding 0 (line.map fun s => (t.openSegs s).headD 0) 0
  closed : ∀ i < t.n, t.pointIdx ⟨i, false⟩ ≠ none →
    (∃ y e a b, (y, e) ∈ hist ∧ HorizOf orient t y e i a b) ∨
    ∃ l y e y' e' l', evs hist (t.origSeg i) = l ++ (y, e) :: (y', e') :: l' ∧ Vert orient t y e i ∧
      e'.connectedAbove = true ∧ Runs t i (e.x1, y) (e'.x0, y')
  traced : ∀ s l y e y' e' l', evs hist s = l ++ (y, e) :: (y', e') :: l' → e.connectedBelow = true →
    ∃ i < t.n, Vert orient t y e i ∧ Runs t i (e.x1, y) (e'.x0, y')
  cover : ∀ y e, (y, e) ∈ hist → ∀ z, e.smallerX ≤ z → z < e.largerX →
    ∃ i a b, i < t.n ∧ a ≤ z ∧ z < b ∧ HorizOf orient t y e i a b
  uniq : ∀ y e i i', i < t.n → i' < t.n → Vert orient t y e i → Vert orient t y e i' → i = i'
  heights : ∀ a ∈ t.points, ∃ q ∈ hist, q.1 = a.2
  mono : t.points.Pairwise fun a b => a.2 ≤ b.2
  shape : ∃ B, Shape t B ∧ lastG t B = []
  /-- if nothing else was ever started next to `c` on its east side (horizontal segments do not count), `c` and the segment that did are neighbours on the sweep
  line while both go on, and neighbours at the end if they end at the same point -/
  adj : ∀ i c, i < t.n → t.scanWest i = some c → (∀ j < t.n, t.scanWest j = some c → (∀ a b, Runs t j a b → a.2 ≠ b.2) → j = i) →
    (∀ a b, Runs t i a b → a.2 ≠ b.2) →
    (t.pointIdx ⟨c, false⟩ = none → t.pointIdx ⟨i, false⟩ = none → Consec line (t.origSeg c) (t.origSeg i)) ∧
    ∀ q, t.pointIdx ⟨c, false⟩ = some q → t.pointIdx ⟨i, false⟩ = some q → (t.nb ⟨c, false⟩).cw = ⟨i, false⟩

theorem evs_append (h1 h2 : List (K × OutputEvent K)) (s : Nat) : evs (h1 ++ h2) s = evs h1 s ++ evs h2 s := by
  unfold evs; rw [List.filter_append]

theorem evs_none (E : List (OutputEvent K)) (y : K) (s : Nat) (h : ∀ e ∈ E, e.segIdx ≠ s) :
    evs (E.map fun e => (y, e)) s = [] := by
  unfold evs
  rw [List.filter_eq_nil_iff]
  intro p hp
  obtain ⟨e, he, rfl⟩ := List.mem_map.1 hp
  simpa using h e he

theorem evs_one (E : List (OutputEvent K)) (y : K) (hnd : (E.map OutputEvent.segIdx).Nodup) (e : OutputEvent K)
    (he : e ∈ E) : evs (E.map fun e => (y, e)) e.segIdx = [(y, e)] := by
  induction E with
  | nil => simp at he
  | cons a E ih =>
    rw [List.map_cons, List.nodup_cons] at hnd
    have hc : evs ((a :: E).map fun e => (y, e)) e.segIdx =
        (if a.segIdx = e.segIdx then [(y, a)] else []) ++ evs (E.map fun e => (y, e)) e.segIdx := by
      unfold evs
      by_cases h : a.segIdx = e.segIdx <;> simp [h]
    rw [hc]
    by_cases h : a.segIdx = e.segIdx
    · have hea : e = a := by
        rcases List.mem_cons.1 he with h1 | h1
        · exact h1
        · exact absurd (List.mem_map.2 ⟨e, h1, h.symm⟩) hnd.1
      subst hea
      rw [if_pos rfl, evs_none]
      · rfl
      · intro e' he' hs
        exact hnd.1 (List.mem_map.2 ⟨e', he', hs⟩)
    · rw [if_neg h, List.nil_append]
      refine ih hnd.2 ?_
      rcases List.mem_cons.1 he with h1 | h1
      · exact absurd (congrArg OutputEvent.segIdx h1).symm h
      · exact h1

theorem lineInv_init (single : Nat → Bool → W) (orient : Nat → Bool) :
    LineInv single orient [] [] (Topo.init : Topo K W) := by
  constructor
  · constructor <;> simp [Topo.init]
  · simp
  · simp
  · intro s _; simp [Topo.init, evs]
  · rfl
  · simp [Topo.init]
  · intro s l y e y' e' l' h; simp [evs] at h
  · simp
  · simp [Topo.init]
  · simp [Topo.init]
  · simp [Topo.init]
  · exact ⟨_, shape_init, rfl⟩
  · simp [Topo.init]

theorem WLine.last {wd : Nat → HW W} {l : List Nat} {u v : W} (h : WLine wd u l v) :
    v = match l.getLast? with | none => u | some i => (wd i).ccw := by
  induction l generalizing u with
  | nil => exact h.symm
  | cons a l ih =>
    have := ih h.2
    cases l with
    | nil => exact h.2.symm
    | cons b l => rw [List.getLast?_cons_cons]; exact this

/-- The events start: nothing has happened yet. -/
theorem linv_start (single : Nat → Bool → W) (orient : Nat → Bool) (y : K)
    (E Eo En : List (OutputEvent K)) (t : Topo K W) (hg : Good single t) (w0 wEnd : W) (sw : Option Nat)
    (hopen : ∀ e ∈ E, t.openSegs e.segIdx =
      if e.connectedAbove = true then [(t.openSegs e.segIdx).headD 0] else [])
    (hsw : ∀ j, sw = some j → j < t.n) (hw0 : w0 = eastOf t sw)
    (hshape : ∃ B, Shape t B ∧ lastG t B = [] ∧ ∀ i, sw = some i → ∃ p < t.points.length, i ∈ (B p).downs)
    (hwO : WLine t.winding w0 (Eo.map fun e => (t.openSegs e.segIdx).headD 0) wEnd) :
    LInv single orient y E Eo En t w0 wEnd sw ⊥ ⟨t, SLRange.new E, w0, sw, none⟩ (fun _ => 0) (fun _ => 0) := by
  have hb : ∀ z : K, ¬ (z : WithBot K) ≤ ⊥ := by simp
  have hb' : ∀ z : K, (⊥ : WithBot K) < z := fun z => WithBot.bot_lt_coe z
  have hact : ∀ e : OutputEvent K, act ⊥ e = false := by intro e; simp [act]
  have hc : ∀ P : OutputEvent K → Bool, csum (contribOf single orient) E
      (fun e => P e && decide ((e.x0 : WithBot K) ≤ ⊥)) = 0 := by
    intro P; unfold csum; simp
  have hc' : ∀ P : OutputEvent K → Bool, csum (contribOf single orient) E
      (fun e => P e && decide ((e.x1 : WithBot K) ≤ ⊥)) = 0 := by
    intro P; unfold csum; simp
  constructor
  case r => exact rinv_new E
  case good => exact hg
  case n_le => exact le_refl _
  case openE =>
    intro e he
    simp only [hact, hb, hb', and_false, if_false, and_true, List.append_nil, Bool.false_eq_true, List.nil_append]
    exact hopen e he
  case openOther => intros; rfl
  case winding_old => intros; rfl
  case west_old => intros; rfl
  case positive_old => intros; rfl
  case orig_old => intros; rfl
  case pidx_old => intro h p hp; exact hp
  case points_old => exact ⟨[], by simp, by simp⟩
  case wH =>
    rw [hc fun e => e.connectedAbove]
    simp [SLRange.new, WLine]
  case wO =>
    rw [hc fun e => e.connectedAbove]
    have : (Eo.filter fun e => decide ((⊥ : WithBot K) < (e.x0 : WithBot K))) = Eo := by
      rw [List.filter_eq_self]; intro e _; simp
    rw [this, add_zero]; exact hwO
  case wN =>
    have : (En.filter fun e => decide ((e.x1 : WithBot K) ≤ ⊥)) = [] := by
      rw [List.filter_eq_nil_iff]; intro e _; simp
    rw [this]; rfl
  case wSum => rw [hc' fun e => e.connectedBelow]; simp
  case cum => rw [hc fun e => !e.connectedAbove, hc' fun e => !e.connectedBelow]
  case sw_lt => exact hsw
  case sw_w => exact hw0
  case lastDown => intros; exact hb' _
  case new_n => intro e _ _ h; exact absurd h (hb _)
  case closed_o => intro e _ _ h; exact absurd h (hb _)
  case open_h => intro e _ h; rw [hact] at h; simp at h
  case kinds => intro i h1 h2; simp only at h2; omega
  case cover => intro e _ z _ _ h; simp at h
  case shape =>
    obtain ⟨B, h1, h2, h3⟩ := hshape
    exact ⟨B, h1, by rw [h2]; rfl, h3⟩
  case westN => intro l1 a l2 h; simp at h
  case swN => simp
  case lastN => simp
  case adjO => intro l1 e1 e2 l2 _ _ h; exact absurd h (hb _)
  case eastO => intros; rfl
  case eastN => intro i h1 h2; simp only at h2; omega
  case afterO => rfl
  case nb_old => intros; rfl
  case pidx_new => intro h p hp; exact .inl hp

end Verif.Topo
