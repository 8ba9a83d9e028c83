import Mathlib.Data.List.Nodup
import Verif.Contours.Model

/-! Grouping contours by containment. -/

namespace Verif.Contours
open Verif.Topo

/-- The parent of contour number `i`. -/
def par (cs : List Contour) (i : Nat) : Option Nat := (cs[i]?).bind Contour.parent

/-- `i` is `r` or a child of something below `r`: specification of "belongs to the group of `r`". -/
inductive Under (cs : List Contour) (r : Nat) : Nat → Prop
  | self : Under cs r r
  | child (p i : Nat) : Under cs r p → par cs i = some p → Under cs r i

/-- Parents come before their children. -/
def Forest (cs : List Contour) : Prop := ∀ i p, par cs i = some p → p < i

def kids (cs : List Contour) (p : Nat) : List Nat := (List.range cs.length).filter fun i => decide (par cs i = some p)
def roots (cs : List Contour) : List Nat := (List.range cs.length).filter fun i => decide (par cs i = none)

theorem groupLoop_spec (cs : List Contour) (hf : Forest cs) (d : Nat) : ∀ k ch top, k + d = cs.length →
    (∀ p, ch p = (List.range k).filter fun i => decide (par cs i = some p)) →
    (top = (List.range k).filter fun i => decide (par cs i = none)) →
    ∃ ch' , groupLoop cs (List.range' k d) ch top = some (ch', roots cs) ∧ ∀ p, ch' p = kids cs p := by
  induction d with
  | zero =>
    intro k ch top hk h1 h2
    have : k = cs.length := by omega
    subst this
    refine ⟨ch, ?_, h1⟩
    rw [h2]; rfl
  | succ d ih =>
    intro k ch top hk h1 h2
    have hlt : k < cs.length := by omega
    rw [List.range'_succ]
    unfold groupLoop
    rw [List.getElem?_eq_getElem hlt]
    simp only
    have hpar : par cs k = cs[k].parent := by unfold par; rw [List.getElem?_eq_getElem hlt]; rfl
    cases hp : cs[k].parent with
    | none =>
      rw [hp] at hpar
      simp only
      apply ih (k + 1) _ _ (by omega)
      · intro p
        rw [List.range_succ, List.filter_append, h1 p]
        simp [hpar]
      · rw [List.range_succ, List.filter_append, h2]
        simp [hpar]
    | some p =>
      rw [hp] at hpar
      have hpk := hf k p hpar
      simp only
      rw [if_pos (by omega)]
      apply ih (k + 1) _ _ (by omega)
      · intro q
        rw [List.range_succ, List.filter_append]
        unfold Topo.set
        by_cases hq : q = p
        · subst hq; rw [if_pos rfl, h1 q]; simp [hpar]
        · rw [if_neg hq, h1 q]
          have : ¬ p = q := fun h => hq h.symm
          simp [hpar, this]
      · rw [List.range_succ, List.filter_append, h2]
        simp [hpar]

theorem mem_kids (cs : List Contour) (p i : Nat) : i ∈ kids cs p ↔ par cs i = some p := by
  unfold kids
  rw [List.mem_filter, List.mem_range, decide_eq_true_eq]
  refine ⟨fun h => h.2, fun h => ⟨?_, h⟩⟩
  by_contra hge
  unfold par at h
  rw [List.getElem?_eq_none (by omega)] at h
  simp at h

theorem kids_nodup (cs : List Contour) (p : Nat) : (kids cs p).Nodup := List.nodup_range.filter _

theorem Under.le {cs : List Contour} (hf : Forest cs) {r i : Nat} (h : Under cs r i) : r ≤ i := by
  induction h with
  | self => exact le_refl _
  | child p i _ hp ih => have := hf i p hp; omega

theorem Under.trans {cs : List Contour} {a b c : Nat} (h1 : Under cs a b) (h2 : Under cs b c) : Under cs a c := by
  induction h2 with
  | self => exact h1
  | child p i _ hp ih => exact .child p i ih hp

theorem Under.total {cs : List Contour} {a b j : Nat} (h1 : Under cs a j) (h2 : Under cs b j) : Under cs a b ∨ Under cs b a := by
  induction h1 with
  | self => exact .inr h2
  | child p i h hp ih =>
    cases h2 with
    | self => exact .inl (.child p _ h hp)
    | child q _ h' hq =>
      rw [hp] at hq
      have : p = q := by simpa using hq
      subst this
      exact ih h'

/-- A proper descendant is below a child. -/
theorem Under.cases_head {cs : List Contour} {r j : Nat} (h : Under cs r j) : j = r ∨ ∃ c, par cs c = some r ∧ Under cs c j := by
  induction h with
  | self => exact .inl rfl
  | child p i _ hp ih =>
    right
    rcases ih with rfl | ⟨c, h1, h2⟩
    · exact ⟨i, hp, .self⟩
    · exact ⟨c, h1, .child p i h2 hp⟩

theorem Under.disjoint {cs : List Contour} (hf : Forest cs) {a b j r : Nat} (ha : par cs a = some r) (hb : par cs b = some r)
    (h1 : Under cs a j) (h2 : Under cs b j) : a = b := by
  have key : ∀ x y, par cs x = some r → par cs y = some r → Under cs x y → x = y := by
    intro x y hx hy hu
    cases hu with
    | self => rfl
    | child p _ h hp =>
      rw [hy] at hp
      have : r = p := by simpa using hp
      subst this
      have := h.le hf
      have := hf x r hx
      omega
  rcases h1.total h2 with h | h
  · exact key a b ha hb h
  · exact (key b a hb ha h).symm

/-- What a list of visited trees looks like. -/
structure Trees (cs : List Contour) (is l : List Nat) : Prop where
  mem : ∀ j, j ∈ l ↔ ∃ i ∈ is, Under cs i j
  nodup : l.Nodup

theorem visit_spec (cs : List Contour) (hf : Forest cs) (ch : Nat → List Nat) (hch : ∀ p, ch p = kids cs p) (f : Nat) :
    (∀ i, i < cs.length → cs.length - i ≤ f → ∃ T, (∀ acc, visit ch f i acc = some (acc ++ i :: T)) ∧ Trees cs [i] (i :: T)) ∧
    (∀ is, (∀ i ∈ is, i < cs.length ∧ cs.length - i ≤ f) → is.Nodup →
      (∀ a ∈ is, ∀ b ∈ is, ∀ j, Under cs a j → Under cs b j → a = b) →
      ∃ T, (∀ acc, visitAll ch f is acc = some (acc ++ T)) ∧ Trees cs is T) := by
  induction f with
  | zero =>
    constructor
    · intro i h1 h2; omega
    · intro is h _ _
      cases is with
      | nil => exact ⟨[], fun acc => by unfold visitAll; simp, ⟨by simp, by simp⟩⟩
      | cons a l => have := h a (by simp); omega
  | succ f ih =>
    have first : ∀ i, i < cs.length → cs.length - i ≤ f + 1 →
        ∃ T, (∀ acc, visit ch (f + 1) i acc = some (acc ++ i :: T)) ∧ Trees cs [i] (i :: T) := by
      intro i h1 h2
      obtain ⟨T, t1, t2⟩ := ih.2 (kids cs i) (by
        intro c hc
        rw [mem_kids] at hc
        have := hf c i hc
        have hlt : c < cs.length := by
          by_contra hge
          unfold par at hc
          rw [List.getElem?_eq_none (by omega)] at hc
          simp at hc
        omega) (kids_nodup cs i) (by
        intro a ha b hb j
        rw [mem_kids] at ha hb
        exact Under.disjoint hf ha hb)
      refine ⟨T, ?_, ?_, ?_⟩
      · intro acc
        unfold visit
        rw [hch, t1, List.append_assoc]; rfl
      · intro j
        rw [List.mem_cons, t2.mem]
        simp only [List.mem_singleton, exists_eq_left]
        constructor
        · rintro (rfl | ⟨c, h1, h2⟩)
          · exact .self
          · rw [mem_kids] at h1
            exact Under.trans (.child i c .self h1) h2
        · intro h
          rcases h.cases_head with h | ⟨c, h1, h2⟩
          · exact .inl h
          · exact .inr ⟨c, (mem_kids cs i c).2 h1, h2⟩
      · rw [List.nodup_cons]
        refine ⟨?_, t2.nodup⟩
        rw [t2.mem]
        rintro ⟨c, h1, h2⟩
        rw [mem_kids] at h1
        have := hf c i h1
        have := h2.le hf
        omega
    refine ⟨first, ?_⟩
    intro is
    induction is with
    | nil => intro _ _ _; exact ⟨[], fun acc => by unfold visitAll; simp, ⟨by simp, by simp⟩⟩
    | cons a l ihl =>
      intro h1 h2 h3
      rw [List.nodup_cons] at h2
      obtain ⟨T, t1, t2⟩ := first a (h1 a (by simp)).1 (h1 a (by simp)).2
      obtain ⟨S, s1, s2⟩ := ihl (fun i hi => h1 i (List.mem_cons_of_mem _ hi)) h2.2
        (fun x hx y hy => h3 x (List.mem_cons_of_mem _ hx) y (List.mem_cons_of_mem _ hy))
      refine ⟨a :: T ++ S, ?_, ?_, ?_⟩
      · intro acc
        unfold visitAll
        rw [t1]
        simp only
        rw [s1, List.append_assoc]
      · intro j
        rw [List.mem_append, t2.mem, s2.mem]
        simp
      · rw [List.nodup_append]
        refine ⟨t2.nodup, s2.nodup, ?_⟩
        intro x hx y hy hxy
        subst hxy
        rw [t2.mem] at hx
        rw [s2.mem] at hy
        obtain ⟨a', ha', u1⟩ := hx
        have : a' = a := by simpa using ha'
        subst this
        obtain ⟨b, hb, u2⟩ := hy
        have := h3 a' (by simp) b (List.mem_cons_of_mem _ hb) x u1 u2
        subst this
        exact h2.1 hb

theorem groupTop_spec (cs : List Contour) (hf : Forest cs) (ch : Nat → List Nat) (hch : ∀ p, ch p = kids cs p) (fuel : Nat)
    (hfuel : cs.length ≤ fuel) (is : List Nat) (h : ∀ i ∈ is, i < cs.length) :
    ∃ gs, groupTop ch fuel is = some gs ∧ gs.map List.head? = is.map some ∧
      List.Forall₂ (fun i g => g.Nodup ∧ ∀ j, j ∈ g ↔ Under cs i j) is gs := by
  induction is with
  | nil => exact ⟨[], rfl, rfl, .nil⟩
  | cons i l ih =>
    obtain ⟨gs, g1, g2, g3⟩ := ih (fun i hi => h i (List.mem_cons_of_mem _ hi))
    obtain ⟨T, t1, t2⟩ := (visit_spec cs hf ch hch fuel).1 i (h i (by simp)) (by omega)
    refine ⟨(i :: T) :: gs, ?_, ?_, ?_⟩
    · unfold groupTop
      rw [t1 [], g1]; rfl
    · simp [g2]
    · refine .cons ⟨t2.nodup, ?_⟩ g3
      intro j
      rw [t2.mem]; simp

theorem exists_root (cs : List Contour) (hf : Forest cs) (i : Nat) : ∃ r, par cs r = none ∧ Under cs r i := by
  induction i using Nat.strong_induction_on with
  | _ i ih =>
    cases h : par cs i with
    | none => exact ⟨i, h, .self⟩
    | some p =>
      obtain ⟨r, h1, h2⟩ := ih p (hf i p h)
      exact ⟨r, h1, .child p i h2 h⟩

theorem Under.lt {cs : List Contour} {r i : Nat} (h : Under cs r i) (hr : r < cs.length) : i < cs.length := by
  cases h with
  | self => exact hr
  | child p _ _ hp =>
    by_contra hge
    unfold par at hp
    rw [List.getElem?_eq_none (by omega)] at hp
    simp at hp

theorem root_unique {cs : List Contour} {a b j : Nat} (ha : par cs a = none) (hb : par cs b = none)
    (h1 : Under cs a j) (h2 : Under cs b j) : a = b := by
  have key : ∀ x y, par cs y = none → Under cs x y → x = y := by
    intro x y hy hu
    cases hu with
    | self => rfl
    | child p _ h hp => rw [hy] at hp; simp at hp
  rcases h1.total h2 with h | h
  · exact key a b hb h
  · exact (key b a ha h).symm

end Verif.Contours
