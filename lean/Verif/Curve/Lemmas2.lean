import Verif.Curve.Lemmas

/-! More helper lemmas for `CurveOrder` (no claims). -/

namespace Verif.Curve

variable {K : Type} [LinearOrder K]

theorem tiled_first {α : Type} (l : List α) (p : α → Bool) :
    ∃ as, l = as ++ l.dropWhile p ∧ (∀ a ∈ as, p a = true) ∧
      ∀ h t, l.dropWhile p = h :: t → p h = false := by
  induction l with
  | nil => exact ⟨[], by simp⟩
  | cons x l ih =>
    by_cases hx : p x = true
    · obtain ⟨as, h1, h2, h3⟩ := ih
      refine ⟨x :: as, ?_, ?_, ?_⟩
      · simp only [List.dropWhile_cons, hx, if_true, List.cons_append]; rw [← h1]
      · intro a ha; simp at ha; rcases ha with rfl | ha
        · exact hx
        · exact h2 a ha
      · simpa only [List.dropWhile_cons, hx, if_true] using h3
    · refine ⟨[], by simp [hx], by simp, ?_⟩
      intro h t e
      simp [hx] at e
      rw [← e.1]; simpa using hx

/-! ### lookups -/

theorem find_le_iff {lo : K} {ps : List (Piece K)} (h : Tiled lo ps) {y : K} (hy : lo < y)
    (p : Piece K) :
    ps.find? (fun p => y ≤ p.hi) = some p ↔ p ∈ ps ∧ p.lo < y ∧ y ≤ p.hi := by
  constructor
  · intro hf
    rw [List.find?_eq_some_iff_append] at hf
    obtain ⟨h1, as, bs, rfl, h2⟩ := hf
    refine ⟨by simp, ?_, by simpa using h1⟩
    rcases h.prev with ⟨_, e⟩ | ⟨as', a, rfl, e⟩
    · rw [e]; exact hy
    · have := h2 a (by simp)
      simp at this
      rw [← e]; exact this
  · rintro ⟨hm, h1, h2⟩
    obtain ⟨as, bs, rfl⟩ := List.append_of_mem hm
    rw [List.find?_eq_some_iff_append]
    refine ⟨by simpa using h2, as, bs, rfl, ?_⟩
    intro a ha
    have := (h.split.1 a ha).2.2
    simp; order

theorem find_lt_iff {lo : K} {ps : List (Piece K)} (h : Tiled lo ps) {y : K} (hy : lo ≤ y)
    (p : Piece K) :
    ps.find? (fun p => y < p.hi) = some p ↔ p ∈ ps ∧ p.lo ≤ y ∧ y < p.hi := by
  constructor
  · intro hf
    rw [List.find?_eq_some_iff_append] at hf
    obtain ⟨h1, as, bs, rfl, h2⟩ := hf
    refine ⟨by simp, ?_, by simpa using h1⟩
    rcases h.prev with ⟨_, e⟩ | ⟨as', a, rfl, e⟩
    · rw [e]; exact hy
    · have := h2 a (by simp)
      simp at this
      rw [← e]; exact this
  · rintro ⟨hm, h1, h2⟩
    obtain ⟨as, bs, rfl⟩ := List.append_of_mem hm
    rw [List.find?_eq_some_iff_append]
    refine ⟨by simpa using h2, as, bs, rfl, ?_⟩
    intro a ha
    have := (h.split.1 a ha).2.2
    simp; order

/-- piece containing a height -/
theorem Tiled.exists_piece {lo : K} {ps : List (Piece K)} (h : Tiled lo ps) {y : K} (hy : lo < y)
    {e : K} (hl : ∃ p ∈ ps, e ≤ p.hi) (hye : y ≤ e) : ∃ p ∈ ps, p.lo < y ∧ y ≤ p.hi := by
  have : (ps.find? (fun p => y ≤ p.hi)).isSome = true := by
    rw [List.find?_isSome]
    obtain ⟨p, hp, he⟩ := hl
    exact ⟨p, hp, by simp; order⟩
  obtain ⟨p, hp⟩ := Option.isSome_iff_exists.1 this
  exact ⟨p, (find_le_iff h hy p).1 hp⟩

/-! ### entries and pieces -/

omit [LinearOrder K] in
theorem pieces_snoc (s : K) (as : List (Entry K)) (e : Entry K) :
    pieces s (as ++ [e]) =
      pieces s as ++ [⟨((as.getLast?).map Entry.stop).getD s, e.stop, e.order⟩] := by
  rw [pieces_append]; rfl

omit [LinearOrder K] in
theorem pieces_getLast? (s : K) (es : List (Entry K)) :
    (pieces s es).getLast?.map Piece.hi = es.getLast?.map Entry.stop := by
  induction es generalizing s with
  | nil => rfl
  | cons e es ih =>
    cases es with
    | nil => rfl
    | cons f es =>
      have := ih e.stop
      simp only [pieces, List.getLast?_cons_cons] at this ⊢
      exact this

omit [LinearOrder K] in
theorem pieces_flip (s : K) (es : List (Entry K)) :
    pieces s (es.map Entry.flip) = (pieces s es).map fun p => ⟨p.lo, p.hi, p.order.flip⟩ := by
  induction es generalizing s with
  | nil => rfl
  | cons e es ih => simp [pieces, ih, Entry.flip]

theorem Tiled.flip {lo : K} {ps : List (Piece K)} (h : Tiled lo ps) :
    Tiled lo (ps.map fun p => (⟨p.lo, p.hi, p.order.flip⟩ : Piece K)) := by
  induction ps generalizing lo with
  | nil => trivial
  | cons p ps ih =>
    cases ps with
    | nil => exact h
    | cons q r =>
      refine ⟨h.1, h.2.1, ⟨h.2.2.1.1, ?_, ?_⟩, ih h.2.2.2⟩
      · have := h.2.2.1.2.1
        intro h0; apply this
        simp only at h0
        revert h0; cases p.order <;> cases q.order <;> simp [Order.flip]
      · rcases h.2.2.1.2.2 with h | h
        · left; simp [h, Order.flip]
        · right; simp [h, Order.flip]

theorem Tiled.last {lo : K} {ps : List (Piece K)} {p : Piece K} (h : Tiled lo ps)
    (hl : ps.getLast? = some p) : ∀ q ∈ ps, q.hi ≤ p.hi := by
  obtain ⟨as, rfl⟩ : ∃ as, ps = as ++ [p] := by
    rw [List.getLast?_eq_some_iff] at hl; exact hl
  intro q hq
  simp at hq
  rcases hq with hq | rfl
  · have := (h.split.1 q hq).2.2
    have := h.split.2.2.1
    order
  · exact le_refl _

/-! ### slop -/

section Slop
variable (down up : K → K) (S E : K)

def newLo (p : Piece K) : K := if p.lo = S then p.lo else up p.lo
def newHi (p : Piece K) : K := if p.hi = E then p.hi else down p.hi
def Kept (p : Piece K) : Prop := p.order ≠ .ish ∧ newLo up S p < newHi down E p

theorem slopLoop_cons (p : Piece K) (ps : List (Piece K)) [Decidable (Kept down up S E p)] :
    CurveOrder.slopLoop down up S E (p :: ps) =
      (if Kept down up S E p then
        (if newLo up S p ≠ S then [⟨newLo up S p, .ish⟩] else []) ++
          [⟨newHi down E p, p.order⟩]
      else []) ++ CurveOrder.slopLoop down up S E ps := by
  simp only [CurveOrder.slopLoop, Kept, newLo, newHi]
  congr

variable (hdown : ∀ x, down x ≤ x) (hup : ∀ x, x ≤ up x)

include hup in
theorem newLo_eq_iff {p : Piece K} (hp : S ≤ p.lo) : newLo up S p = S ↔ p.lo = S := by
  unfold newLo
  split
  · simp_all
  · have := hup p.lo
    constructor
    · intro h; order
    · intro h; contradiction

include hup in
theorem le_newLo (p : Piece K) : p.lo ≤ newLo up S p := by
  unfold newLo; split
  · exact le_refl _
  · exact hup _

include hdown in
theorem newHi_le (p : Piece K) : newHi down E p ≤ p.hi := by
  unfold newHi; split
  · exact le_refl _
  · exact hdown _

include hdown hup in
/-- Shape of the widened list: from `cur`, either nothing was output yet (`cur = S`) or the last
output was a definite piece ending at `cur > S`. -/
theorem slopLoop_tiled (ps : List (Piece K)) : ∀ (lo cur : K), Tiled lo ps → S ≤ lo → S ≤ cur →
    cur ≤ lo →
    Tiled cur (pieces cur (CurveOrder.slopLoop down up S E ps)) ∧
    (∀ q, (pieces cur (CurveOrder.slopLoop down up S E ps)).getLast? = some q → q.order ≠ .ish) ∧
    (∀ q r, pieces cur (CurveOrder.slopLoop down up S E ps) = q :: r → S < cur → q.order = .ish) ∧
    (∀ q, q.order ≠ .ish → (q ∈ pieces cur (CurveOrder.slopLoop down up S E ps) ↔
      ∃ p ∈ ps, Kept down up S E p ∧ q = ⟨newLo up S p, newHi down E p, p.order⟩)) ∧
    (∀ q ∈ pieces cur (CurveOrder.slopLoop down up S E ps), ∃ p ∈ ps, q.hi ≤ p.hi) := by
  classical
  induction ps with
  | nil =>
    intro lo cur _ _ _ _
    refine ⟨trivial, ?_, ?_, ?_, ?_⟩ <;> simp [CurveOrder.slopLoop, pieces]
  | cons p ps ih =>
    intro lo cur ht hS hScur hcur
    have hp := ht.head
    have hplo : S ≤ p.lo := by obtain ⟨h1, h2⟩ := hp; order
    rw [slopLoop_cons]
    by_cases hk : Kept down up S E p
    · rw [if_pos hk]
      have hk1 := hk.1
      have hk2 := hk.2
      have g1 := le_newLo up S hup p
      have g2 := newHi_le down E hdown p
      obtain ⟨i1, i2, i3, i4, i5⟩ := ih p.hi (newHi down E p) ht.tail
        (by obtain ⟨h1, h2⟩ := hp; order) (by order) g2
      have hlt : S < newHi down E p := by order
      -- the part from the definite piece on
      have core : Tiled (newLo up S p)
          (⟨newLo up S p, newHi down E p, p.order⟩ ::
            pieces (newHi down E p) (CurveOrder.slopLoop down up S E ps)) := by
        cases hr : pieces (newHi down E p) (CurveOrder.slopLoop down up S E ps) with
        | nil => exact ⟨rfl, le_of_lt hk2⟩
        | cons q r =>
          rw [hr] at i1 i3
          have hi := i3 q r rfl hlt
          refine ⟨rfl, le_of_lt hk2, ⟨i1.head.1.symm, ?_, .inr hi⟩, i1⟩
          rw [hi]; exact hk1
      have lastcore : ∀ q, ((⟨newLo up S p, newHi down E p, p.order⟩ : Piece K) ::
            pieces (newHi down E p) (CurveOrder.slopLoop down up S E ps)).getLast? = some q →
            q.order ≠ .ish := by
        intro q hq
        cases hr : pieces (newHi down E p) (CurveOrder.slopLoop down up S E ps) with
        | nil => rw [hr] at hq; simp at hq; rw [← hq]; exact hk1
        | cons a r =>
          rw [hr] at hq i2
          rw [List.getLast?_cons_cons] at hq
          exact i2 q hq
      by_cases hs : newLo up S p = S
      · have hplS := (newLo_eq_iff up S hup hplo).1 hs
        have hcurS : cur = S := by obtain ⟨h1, h2⟩ := hp; order
        subst hcurS
        simp only [hs, ne_eq, not_true_eq_false, if_false, List.nil_append, List.singleton_append,
          pieces]
        rw [hs] at core lastcore
        refine ⟨core, lastcore, ?_, ?_, ?_⟩
        · intro q r _ hlt'; exact absurd hlt' (lt_irrefl _)
        · intro q hq
          simp only [List.mem_cons, i4 q hq]
          constructor
          · rintro (rfl | ⟨p', h1, h2, h3⟩)
            · exact ⟨p, .inl rfl, hk, by rw [hs]⟩
            · exact ⟨p', .inr h1, h2, h3⟩
          · rintro ⟨p', rfl | h1, h2, h3⟩
            · left; rw [h3, hs]
            · exact .inr ⟨p', h1, h2, h3⟩
        · intro q hq
          simp only [List.mem_cons] at hq
          rcases hq with rfl | hq
          · exact ⟨p, by simp, g2⟩
          · obtain ⟨p', h1, h2⟩ := i5 q hq
            exact ⟨p', by simp [h1], h2⟩
      · simp only [hs, ne_eq, not_false_eq_true, if_true, List.cons_append, List.nil_append, pieces]
        have hcl : cur ≤ newLo up S p := by obtain ⟨h1, h2⟩ := hp; order
        refine ⟨⟨rfl, hcl, ⟨rfl, ?_, .inl rfl⟩, core⟩, ?_, ?_, ?_, ?_⟩
        · exact fun h => hk1 h.symm
        · intro q hq; rw [List.getLast?_cons_cons] at hq; exact lastcore q hq
        · intro q r hqr _
          simp at hqr; rw [← hqr.1]
        · intro q hq
          simp only [List.mem_cons, i4 q hq]
          constructor
          · rintro (rfl | rfl | ⟨p', h1, h2, h3⟩)
            · exact absurd rfl hq
            · exact ⟨p, .inl rfl, hk, rfl⟩
            · exact ⟨p', .inr h1, h2, h3⟩
          · rintro ⟨p', rfl | h1, h2, h3⟩
            · right; left; exact h3
            · exact .inr (.inr ⟨p', h1, h2, h3⟩)
        · intro q hq
          simp only [List.mem_cons] at hq
          rcases hq with rfl | rfl | hq
          · exact ⟨p, by simp, by simp only; order⟩
          · exact ⟨p, by simp, g2⟩
          · obtain ⟨p', h1, h2⟩ := i5 q hq
            exact ⟨p', by simp [h1], h2⟩
    · rw [if_neg hk, List.nil_append]
      obtain ⟨i1, i2, i3, i4, i5⟩ := ih p.hi cur ht.tail
        (by obtain ⟨h1, h2⟩ := hp; order) hScur (by obtain ⟨h1, h2⟩ := hp; order)
      refine ⟨i1, i2, i3, ?_, ?_⟩
      · intro q hq
        rw [i4 q hq]
        constructor
        · rintro ⟨p', h1, h2⟩; exact ⟨p', by simp [h1], h2⟩
        · rintro ⟨p', h1, h2, h3⟩
          simp at h1
          rcases h1 with rfl | h1
          · contradiction
          · exact ⟨p', h1, h2, h3⟩
      · intro q hq
        obtain ⟨p', h1, h2⟩ := i5 q hq
        exact ⟨p', by simp [h1], h2⟩

end Slop

end Verif.Curve
