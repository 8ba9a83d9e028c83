import Mathlib.Tactic.Tauto
import Verif.Sweep.Model

/-! The event queue and the scans that fill it. -/

namespace Verif.Sweep
open Verif.Curve Verif.Range Verif.Topo
set_option linter.unusedSectionVars false

variable {K : Type} [LinearOrder K]

/-! ## The order of intersection events -/

theorem IEvent.lt_iff (a b : IEvent K) : a.lt b = true ↔
    a.y < b.y ∨ (a.y = b.y ∧ (a.left < b.left ∨ (a.left = b.left ∧ a.right < b.right))) := by
  simp [IEvent.lt]

theorem IEvent.lt_irrefl (a : IEvent K) : a.lt a = false := by
  rw [← Bool.not_eq_true, IEvent.lt_iff]; simp

theorem IEvent.lt_trans {a b c : IEvent K} (h1 : a.lt b = true) (h2 : b.lt c = true) : a.lt c = true := by
  rw [IEvent.lt_iff] at *
  rcases h1 with h1 | ⟨h1, h1'⟩ <;> rcases h2 with h2 | ⟨h2, h2'⟩
  · exact .inl (_root_.lt_trans h1 h2)
  · exact .inl (h2 ▸ h1)
  · exact .inl (h1 ▸ h2)
  · refine .inr ⟨h1.trans h2, ?_⟩
    omega

theorem IEvent.lt_total (a b : IEvent K) : a.lt b = true ∨ a = b ∨ b.lt a = true := by
  rw [IEvent.lt_iff, IEvent.lt_iff]
  rcases lt_trichotomy a.y b.y with h | h | h
  · exact .inl (.inl h)
  · rcases Nat.lt_trichotomy a.left b.left with h2 | h2 | h2
    · exact .inl (.inr ⟨h, .inl h2⟩)
    · rcases Nat.lt_trichotomy a.right b.right with h3 | h3 | h3
      · exact .inl (.inr ⟨h, .inr ⟨h2, h3⟩⟩)
      · right; left
        cases a; cases b; simp_all
      · exact .inr (.inr (.inr ⟨h.symm, .inr ⟨h2.symm, h3⟩⟩))
    · exact .inr (.inr (.inr ⟨h.symm, .inl h2⟩))
  · exact .inr (.inr (.inl h))

theorem IEvent.lt_y {a b : IEvent K} (h : a.lt b = true) : a.y ≤ b.y := by
  rw [IEvent.lt_iff] at h
  rcases h with h | ⟨h, _⟩
  · exact h.le
  · exact h.le

/-- The queue is sorted (and has no duplicates). -/
def QSorted (l : List (IEvent K)) : Prop := l.Pairwise fun a b => a.lt b = true

theorem mem_pushInt (e : IEvent K) (l : List (IEvent K)) (x : IEvent K) : x ∈ pushInt e l ↔ x = e ∨ x ∈ l := by
  induction l with
  | nil => simp [pushInt]
  | cons f fs ih =>
    simp only [pushInt]
    split_ifs with h1 h2
    · simp
    · simp only [List.mem_cons, ih]
      tauto
    · have : e = f := by
        rcases IEvent.lt_total e f with h | h | h
        · exact absurd h h1
        · exact h
        · exact absurd h h2
      subst this
      simp

theorem pushInt_sorted (e : IEvent K) (l : List (IEvent K)) (h : QSorted l) : QSorted (pushInt e l) := by
  unfold QSorted at *
  induction l with
  | nil => simp [pushInt]
  | cons f fs ih =>
    rw [List.pairwise_cons] at h
    simp only [pushInt]
    split_ifs with h1 h2
    · rw [List.pairwise_cons, List.pairwise_cons]
      refine ⟨?_, h⟩
      intro x hx
      rcases List.mem_cons.1 hx with rfl | hx
      · exact h1
      · exact IEvent.lt_trans h1 (h.1 x hx)
    · rw [List.pairwise_cons]
      refine ⟨?_, ih h.2⟩
      intro x hx
      rcases (mem_pushInt e fs x).1 hx with rfl | hx
      · exact h2
      · exact h.1 x hx
    · exact List.pairwise_cons.2 h

theorem QSorted.head_le {e : IEvent K} {l : List (IEvent K)} (h : QSorted (e :: l)) (x : IEvent K) (hx : x ∈ e :: l) : e.y ≤ x.y := by
  rcases List.mem_cons.1 hx with rfl | hx
  · exact le_refl _
  · exact IEvent.lt_y ((List.pairwise_cons.1 h).1 x hx)

/-! ## The next height -/

theorem nextY_some {E : Env K} {s : State K} {y : K} (h : nextY E s = some y) :
    ((∃ p, E.entrances[s.nextEnter]? = some p ∧ p.1 = y) ∨ (∃ p, E.exits[s.nextExit]? = some p ∧ p.1 = y) ∨
      ∃ e, s.ints.head? = some e ∧ e.y = y) ∧
    (∀ p, E.entrances[s.nextEnter]? = some p → y ≤ p.1) ∧ (∀ p, E.exits[s.nextExit]? = some p → y ≤ p.1) ∧
    (∀ e, s.ints.head? = some e → y ≤ e.y) := by
  unfold nextY at h
  have hm := List.min?_mem h
  have hl := (List.le_min?_iff h).1 (le_refl y)
  simp only [List.mem_filterMap, List.mem_cons, List.not_mem_nil, or_false, id_eq] at hm hl
  refine ⟨?_, ?_, ?_, ?_⟩
  · obtain ⟨a, h1, h2⟩ := hm
    rcases h1 with h1 | h1 | h1
    · rw [h2] at h1
      left
      cases hh : E.entrances[s.nextEnter]? with
      | none => rw [hh] at h1; simp at h1
      | some p => rw [hh] at h1; exact ⟨p, rfl, by simpa using h1.symm⟩
    · rw [h2] at h1
      right; left
      cases hh : E.exits[s.nextExit]? with
      | none => rw [hh] at h1; simp at h1
      | some p => rw [hh] at h1; exact ⟨p, rfl, by simpa using h1.symm⟩
    · rw [h2] at h1
      right; right
      cases hh : s.ints.head? with
      | none => rw [hh] at h1; simp at h1
      | some p => rw [hh] at h1; exact ⟨p, rfl, by simpa using h1.symm⟩
  · intro p hp
    exact hl p.1 ⟨_, .inl rfl, by rw [hp]; rfl⟩
  · intro p hp
    exact hl p.1 ⟨_, .inr (.inl rfl), by rw [hp]; rfl⟩
  · intro e he
    exact hl e.y ⟨_, .inr (.inr rfl), by rw [he]; rfl⟩

theorem nextY_none {E : Env K} {s : State K} (h : nextY E s = none) :
    E.entrances.length ≤ s.nextEnter ∧ E.exits.length ≤ s.nextExit ∧ s.ints = [] := by
  unfold nextY at h
  rw [List.min?_eq_none_iff] at h
  simp only [List.filterMap_eq_nil_iff, List.mem_cons, List.not_mem_nil, or_false, id_eq] at h
  refine ⟨?_, ?_, ?_⟩
  · have := h _ (.inl rfl)
    simpa using this
  · have := h _ (.inr (.inl rfl))
    simpa using this
  · have := h _ (.inr (.inr rfl))
    simpa using this

/-! ## The schedules -/

/-- The part of a schedule that is still to come. -/
def Pending (l : List (K × Nat)) (next : Nat) : List (K × Nat) := l.drop next

theorem atHeight_append (y : K) (l : List (K × Nat)) (next : Nat) :
    l.drop next = atHeight y l next ++ l.drop (next + (atHeight y l next).length) := by
  unfold atHeight
  conv_lhs => rw [← List.takeWhile_append_dropWhile (p := fun p : K × Nat => decide (p.1 ≤ y)) (l := l.drop next)]
  congr 1
  rw [← List.drop_drop]
  generalize l.drop next = m
  induction m with
  | nil => rfl
  | cons a m ih =>
    by_cases h : a.1 ≤ y
    · simp [h, ih]
    · simp [h]

theorem atHeight_le (y : K) (l : List (K × Nat)) (next : Nat) : ∀ p ∈ atHeight y l next, p.1 ≤ y := by
  intro p hp
  have := List.mem_takeWhile_imp hp
  simpa using this

theorem atHeight_rest (y : K) (l : List (K × Nat)) (next : Nat) (p : K × Nat)
    (h : l[next + (atHeight y l next).length]? = some p) : y < p.1 := by
  have h2 : l[next + (atHeight y l next).length]? = (l.drop next)[(atHeight y l next).length]? := by
    rw [List.getElem?_drop]
  rw [h2] at h
  unfold atHeight at h
  generalize l.drop next = m at h
  induction m with
  | nil => simp at h
  | cons a m ih =>
    by_cases h1 : a.1 ≤ y
    · simp [h1] at h
      exact ih h
    · simp [h1] at h
      rw [← h]
      exact not_le.1 h1

end Verif.Sweep
