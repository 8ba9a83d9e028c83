import Verif.Segs.Refine
import Mathlib.Data.List.Nodup

/-!
# Sorting the schedules twice

`update_enter_exit` sorts with a stable sort. So appending and sorting again gives the same as sorting everything at once.
-/

namespace Verif.Segs

variable {K : Type}

theorem pair_sublist {α : Type} {a b : α} (hne : a ≠ b) {l : List α} (ha : a ∈ l) (hb : b ∈ l) : [a, b].Sublist l ∨ [b, a].Sublist l := by
  induction l with
  | nil => simp at ha
  | cons x l ih =>
    rcases List.mem_cons.1 ha with rfl | ha'
    · rcases List.mem_cons.1 hb with rfl | hb
      · exact absurd rfl hne
      · exact Or.inl (List.Sublist.cons_cons _ (List.singleton_sublist.2 hb))
    · rcases List.mem_cons.1 hb with rfl | hb
      · exact Or.inr (List.Sublist.cons_cons _ (List.singleton_sublist.2 ha'))
      · exact (ih ha' hb).imp (List.Sublist.cons _) (List.Sublist.cons _)

/-- `a` and `b` are not equivalent, or they are in the order of their numbers. -/
def Ties (le : K × Nat → K × Nat → Bool) (a b : K × Nat) : Prop := le b a = true → a.2 < b.2

theorem ties {le : K × Nat → K × Nat → Bool} {a b : K × Nat} (h : a.2 < b.2) : Ties le a b := fun _ => h

/-- The sort is stable. -/
theorem mergeSort_ties {le : K × Nat → K × Nat → Bool} (ht : ∀ a b c, le a b = true → le b c = true → le a c = true) (ho : ∀ a b, (le a b || le b a) = true)
    {l : List (K × Nat)} (hn : (l.map Prod.snd).Nodup) (h : l.Pairwise (Ties le)) : (l.mergeSort le).Pairwise (Ties le) := by
  rw [List.pairwise_iff_forall_sublist]
  intro a b hab hba
  have hnd : (l.mergeSort le).Nodup := (List.mergeSort_perm l le).nodup_iff.2 (List.Nodup.of_map _ hn)
  have hne : a ≠ b := by
    have := hnd.sublist hab
    simpa using this
  have ha : a ∈ l := List.mem_mergeSort.1 (hab.subset (by simp))
  have hb : b ∈ l := List.mem_mergeSort.1 (hab.subset (by simp))
  rcases pair_sublist hne ha hb with h1 | h1
  · exact List.pairwise_iff_forall_sublist.1 h h1 hba
  · have h2 := List.pair_sublist_mergeSort ht ho hba h1
    exfalso
    -- both orders in a list without repetition
    have : ∀ l : List (K × Nat), l.Nodup → [a, b].Sublist l → ¬ [b, a].Sublist l := by
      intro l hl h3 h4
      induction l with
      | nil => simp at h3
      | cons x l ih =>
        rw [List.nodup_cons] at hl
        cases h3 with
        | cons _ h3 =>
          cases h4 with
          | cons _ h4 => exact ih hl.2 h3 h4
          | cons_cons _ h4 => exact hl.1 (h3.subset (by simp))
        | cons_cons _ h3 =>
          cases h4 with
          | cons _ h4 => exact hl.1 (h4.subset (by simp))
          | cons_cons _ h4 => exact hne rfl
    exact this _ hnd hab h2

/-- Sorting a part first changes nothing. -/
theorem mergeSort_twice {le le1 : K × Nat → K × Nat → Bool} (ht : ∀ a b c, le a b = true → le b c = true → le a c = true)
    (ho : ∀ a b, (le a b || le b a) = true) (ht1 : ∀ a b c, le1 a b = true → le1 b c = true → le1 a c = true) (ho1 : ∀ a b, (le1 a b || le1 b a) = true)
    {A B : List (K × Nat)} (hag : ∀ a ∈ A, ∀ b ∈ A, le1 a b = le a b) (hs : ((A ++ B).map Prod.snd).Pairwise (· < ·)) :
    (A.mergeSort le1 ++ B).mergeSort le = (A ++ B).mergeSort le := by
  have hp : (A.mergeSort le1 ++ B).Perm (A ++ B) := (List.mergeSort_perm A le1).append_right B
  have hnd : ((A ++ B).map Prod.snd).Nodup := hs.imp fun h => ne_of_lt h
  have hlt : (A ++ B).Pairwise fun a b => a.2 < b.2 := List.pairwise_map.1 hs
  have hA : A.Pairwise fun a b => a.2 < b.2 := (List.pairwise_append.1 hlt).1
  have hB : B.Pairwise fun a b => a.2 < b.2 := (List.pairwise_append.1 hlt).2.1
  have hAB := (List.pairwise_append.1 hlt).2.2
  have hndA : (A.map Prod.snd).Nodup := by
    rw [List.map_append] at hnd
    exact (List.nodup_append.1 hnd).1
  have t1 : (A.mergeSort le1).Pairwise (Ties le) := by
    have := mergeSort_ties ht1 ho1 hndA (hA.imp ties)
    refine this.imp_of_mem ?_
    intro a b ha hb hab hba
    exact hab (by rw [hag b (List.mem_mergeSort.1 hb) a (List.mem_mergeSort.1 ha)]; exact hba)
  have t2 : (A.mergeSort le1 ++ B).Pairwise (Ties le) :=
    List.pairwise_append.2 ⟨t1, hB.imp ties, fun a ha b hb _ => hAB a (List.mem_mergeSort.1 ha) b hb⟩
  have s1 := mergeSort_ties ht ho ((hp.map Prod.snd).nodup_iff.2 hnd) t2
  have s2 := mergeSort_ties ht ho hnd (hlt.imp ties)
  have o1 := List.pairwise_mergeSort ht ho (A.mergeSort le1 ++ B)
  have o2 := List.pairwise_mergeSort ht ho (A ++ B)
  refine List.Perm.eq_of_pairwise (le := fun a b => le a b = true ∧ Ties le a b) ?_ (o1.and s1) (o2.and s2)
    ((List.mergeSort_perm _ le).trans (hp.trans (List.mergeSort_perm _ le).symm))
  intro a b _ _ h1 h2
  exact absurd (h1.2 h2.1) (Nat.lt_asymm (h2.2 h1.1))

end Verif.Segs
