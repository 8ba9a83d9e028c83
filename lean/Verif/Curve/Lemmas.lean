import Verif.Curve.Model
import Mathlib.Order.Basic
import Mathlib.Tactic.Order

/-! Helper definitions and lemmas for `CurveOrder` (no claims). -/

namespace Verif.Curve

variable {K : Type} [LinearOrder K]

/-- Two neighbouring pieces: contiguous, different orders, one of them undetermined. -/
def Adj (p q : Piece K) : Prop :=
  p.hi = q.lo ∧ p.order ≠ q.order ∧ (p.order = .ish ∨ q.order = .ish)

/-- `Tiled lo ps`: the pieces are non-inverted, start at `lo`, and neighbours are `Adj`. -/
def Tiled : K → List (Piece K) → Prop
  | _, [] => True
  | lo, [p] => p.lo = lo ∧ p.lo ≤ p.hi
  | lo, p :: q :: rest => p.lo = lo ∧ p.lo ≤ p.hi ∧ Adj p q ∧ Tiled p.hi (q :: rest)

theorem Tiled.head {lo : K} {p : Piece K} {ps : List (Piece K)} (h : Tiled lo (p :: ps)) :
    p.lo = lo ∧ p.lo ≤ p.hi := by
  cases ps with
  | nil => exact h
  | cons q r => exact ⟨h.1, h.2.1⟩

theorem Tiled.tail {lo : K} {p : Piece K} {ps : List (Piece K)} (h : Tiled lo (p :: ps)) :
    Tiled p.hi ps := by
  cases ps with
  | nil => trivial
  | cons q r => exact h.2.2.2

theorem Tiled.lo_le {lo : K} {ps : List (Piece K)} (h : Tiled lo ps) :
    ∀ p ∈ ps, lo ≤ p.lo ∧ p.lo ≤ p.hi := by
  induction ps generalizing lo with
  | nil => simp
  | cons a ps ih =>
    intro p hp
    have h1 := h.head
    simp at hp
    rcases hp with rfl | hp
    · exact ⟨le_of_eq h1.1.symm, h1.2⟩
    · have := ih h.tail p hp
      obtain ⟨h2, h3⟩ := this
      obtain ⟨h4, h5⟩ := h1
      exact ⟨by order, h3⟩

theorem Tiled.drop {lo : K} {as : List (Piece K)} {p : Piece K} {bs : List (Piece K)}
    (h : Tiled lo (as ++ p :: bs)) : Tiled p.lo (p :: bs) := by
  induction as generalizing lo with
  | nil =>
    have := h.head.1
    simp at h
    rw [this]; exact h
  | cons a as ih => exact ih (h.tail)

theorem Tiled.split {lo : K} {as : List (Piece K)} {p : Piece K} {bs : List (Piece K)}
    (h : Tiled lo (as ++ p :: bs)) :
    (∀ a ∈ as, lo ≤ a.lo ∧ a.lo ≤ a.hi ∧ a.hi ≤ p.lo) ∧ lo ≤ p.lo ∧ p.lo ≤ p.hi ∧
      (∀ b ∈ bs, p.hi ≤ b.lo ∧ b.lo ≤ b.hi) := by
  refine ⟨?_, ?_, ?_, ?_⟩
  · induction as generalizing lo with
    | nil => simp
    | cons a as ih =>
      intro a' ha'
      have h1 := h.head
      simp at ha'
      rcases ha' with rfl | ha'
      · have := h.tail.lo_le p (by simp)
        exact ⟨le_of_eq h1.1.symm, h1.2, this.1⟩
      · obtain ⟨h2, h3⟩ := ih h.tail a' ha'
        obtain ⟨h4, h5⟩ := h1
        exact ⟨by order, h3⟩
  · exact (h.lo_le p (by simp)).1
  · exact (h.lo_le p (by simp)).2
  · exact h.drop.tail.lo_le

theorem Tiled.adj {lo : K} {as : List (Piece K)} {p q : Piece K} {bs : List (Piece K)}
    (h : Tiled lo (as ++ p :: q :: bs)) : Adj p q := by
  have := h.drop
  exact this.2.2.1

/-- The start of a piece is the end of its predecessor. -/
theorem Tiled.prev {lo : K} {as : List (Piece K)} {p : Piece K} {bs : List (Piece K)}
    (h : Tiled lo (as ++ p :: bs)) :
    (as = [] ∧ p.lo = lo) ∨ ∃ as' a, as = as' ++ [a] ∧ a.hi = p.lo := by
  by_cases ha : as = []
  · left; subst ha; exact ⟨rfl, h.head.1⟩
  · right
    refine ⟨as.dropLast, as.getLast ha, (List.dropLast_concat_getLast ha).symm, ?_⟩
    have e : as ++ p :: bs = as.dropLast ++ as.getLast ha :: p :: bs := by
      conv_lhs => rw [← List.dropLast_concat_getLast ha]
      simp
    rw [e] at h
    exact h.adj.1

omit [LinearOrder K] in
theorem pieces_append (s : K) (as bs : List (Entry K)) :
    pieces s (as ++ bs) = pieces s as ++ pieces (((as.getLast?).map Entry.stop).getD s) bs := by
  induction as generalizing s with
  | nil => simp [pieces]
  | cons a as ih =>
    simp only [List.cons_append, pieces, ih]
    congr 2
    cases as with
    | nil => simp
    | cons b bs => simp [List.getLast?_cons]

omit [LinearOrder K] in
theorem pieces_length (s : K) (es : List (Entry K)) : (pieces s es).length = es.length := by
  induction es generalizing s with
  | nil => rfl
  | cons e es ih => simp [pieces, ih]

omit [LinearOrder K] in
theorem pieces_eq_nil (s : K) (es : List (Entry K)) : pieces s es = [] ↔ es = [] := by
  cases es <;> simp [pieces]

/-- Appending at the end of a tiling. -/
theorem Tiled.snoc {lo : K} {ps : List (Piece K)} {q : Piece K} (h : Tiled lo ps)
    (hq : q.lo ≤ q.hi)
    (hadj : ∀ p, ps.getLast? = some p → Adj p q) (hnil : ps = [] → q.lo = lo) :
    Tiled lo (ps ++ [q]) := by
  induction ps generalizing lo with
  | nil => exact ⟨hnil rfl, hq⟩
  | cons p ps ih =>
    cases ps with
    | nil =>
      have := hadj p (by simp)
      exact ⟨h.1, h.2, this, this.1.symm, hq⟩
    | cons r rs =>
      exact ⟨h.1, h.2.1, h.2.2.1, ih h.2.2.2 (fun p hp => hadj p (by simpa [List.getLast?_cons_cons] using hp)) (by simp)⟩

/-- Replacing the last piece by a longer one with the same order. -/
theorem Tiled.extend {lo : K} {ps : List (Piece K)} {q : Piece K} {y : K}
    (h : Tiled lo (ps ++ [q])) (hy : q.hi ≤ y) : Tiled lo (ps ++ [⟨q.lo, y, q.order⟩]) := by
  induction ps generalizing lo with
  | nil => exact ⟨h.1, le_trans h.2 hy⟩
  | cons p ps ih =>
    cases ps with
    | nil => exact ⟨h.1, h.2.1, h.2.2.1, h.2.2.2.1, le_trans h.2.2.2.2 hy⟩
    | cons r rs => exact ⟨h.1, h.2.1, h.2.2.1, ih h.2.2.2⟩

end Verif.Curve
