import Verif.TreeVec.Props

/-!
# C60: the result of a search is monotone in the predicate

`partition_point` is called with predicates that need not be partitioned. It still answers monotonically: a predicate that is true more
often gives a result that is at least as large. (`compute_horizontal_changed_intervals` relies on it.)
-/

namespace Verif.TreeVec

variable {α β : Type}

/-- The answer of the binary search, once the loop has ended at `b`. -/
def fin (l : List β) (p : β → Bool) (b : Nat) : Nat := if (l[b]?.map p).getD false then b + 1 else b

theorem ppLoop_bounds (l : List β) (pred : β → Option Bool) (size : Nat) : ∀ base b, 1 ≤ size → ppLoop l pred base size = some b →
    base ≤ b ∧ b < base + size := by
  induction size using Nat.strongRecOn with
  | _ size ih =>
    intro base b h1 h
    rw [ppLoop] at h
    by_cases hs : 1 < size
    · rw [if_pos hs] at h
      split at h
      · simp at h
      split at h
      · simp at h
      rename_i v _
      have := ih (size - size / 2) (by omega) _ b (by omega) h
      cases v <;> simp at this <;> omega
    · rw [if_neg hs] at h
      simp only [Option.some.injEq] at h
      omega

theorem ppLoop_mono (l : List β) (P Q : β → Option Bool) (p q : β → Bool) (hP : ∀ x ∈ l, P x = some (p x)) (hQ : ∀ x ∈ l, Q x = some (q x))
    (hpq : ∀ x ∈ l, p x = true → q x = true) (size : Nat) : ∀ base a b, 1 ≤ size → ppLoop l P base size = some a → ppLoop l Q base size = some b →
    fin l p a ≤ fin l q b := by
  induction size using Nat.strongRecOn with
  | _ size ih =>
    intro base a b h1 ha hb
    by_cases hs : 1 < size
    · have ha0 := ha
      have hb0 := hb
      rw [ppLoop, if_pos hs] at ha hb
      cases hx : l[base + size / 2]? with
      | none => rw [hx] at ha; simp at ha
      | some x =>
      rw [hx] at ha hb
      have hm := List.mem_of_getElem? hx
      simp only [hP x hm] at ha
      simp only [hQ x hm] at hb
      cases hp : p x with
      | true =>
        rw [hp] at ha
        rw [hpq x hm hp] at hb
        exact ih (size - size / 2) (by omega) _ a b (by omega) ha hb
      | false =>
        rw [hp] at ha
        cases hq : q x with
        | false =>
          rw [hq] at hb
          exact ih (size - size / 2) (by omega) _ a b (by omega) ha hb
        | true =>
          rw [hq] at hb
          simp only [Bool.false_eq_true, if_false] at ha
          simp only [if_true] at hb
          have b1 := ppLoop_bounds l P (size - size / 2) _ a (by omega) ha
          have b2 := ppLoop_bounds l Q (size - size / 2) _ b (by omega) hb
          have h3 : fin l p a ≤ base + size / 2 := by
            unfold fin
            by_cases heq : a = base + size / 2
            · rw [heq, hx]; simp [hp]
            · split <;> omega
          have h4 : b ≤ fin l q b := by unfold fin; split <;> omega
          omega
    · rw [ppLoop, if_neg hs] at ha hb
      simp only [Option.some.injEq] at ha hb
      subst ha
      subst hb
      unfold fin
      cases hx : l[base]? with
      | none => simp
      | some x =>
        have := hpq x (List.mem_of_getElem? hx)
        simp only [Option.map_some, Option.getD_some]
        by_cases hp : p x = true
        · rw [if_pos hp, if_pos (this hp)]; exact Nat.le_refl _
        · rw [if_neg hp]; split <;> omega

theorem slicePP_mono (l : List β) (P Q : β → Option Bool) (p q : β → Bool) (hP : ∀ x ∈ l, P x = some (p x)) (hQ : ∀ x ∈ l, Q x = some (q x))
    (hpq : ∀ x ∈ l, p x = true → q x = true) {a b : Nat} (ha : slicePartitionPoint l P = some a) (hb : slicePartitionPoint l Q = some b) : a ≤ b := by
  have key : ∀ (P : β → Option Bool) (p : β → Bool), (∀ x ∈ l, P x = some (p x)) → ∀ a, slicePartitionPoint l P = some a →
      (l.length = 0 ∧ a = 0) ∨ (1 ≤ l.length ∧ ∃ c, ppLoop l P 0 l.length = some c ∧ a = fin l p c) := by
    intro P p hP a ha
    unfold slicePartitionPoint at ha
    by_cases h0 : l.length = 0
    · rw [if_pos h0] at ha
      simp only [Option.some.injEq] at ha
      exact .inl ⟨h0, ha.symm⟩
    · rw [if_neg h0] at ha
      right
      refine ⟨by omega, ?_⟩
      cases hc : ppLoop l P 0 l.length with
      | none => rw [hc] at ha; simp at ha
      | some c =>
        rw [hc] at ha
        dsimp only at ha
        cases hx : l[c]? with
        | none => rw [hx] at ha; simp at ha
        | some x =>
          rw [hx] at ha
          simp only [hP x (List.mem_of_getElem? hx), Option.some.injEq] at ha
          refine ⟨c, rfl, ?_⟩
          rw [← ha]
          unfold fin
          rw [hx]; rfl
  rcases key P p hP a ha with ⟨_, h1⟩ | ⟨h0, c, h1, h2⟩
  · omega
  · rcases key Q q hQ b hb with ⟨h3, _⟩ | ⟨_, d, h3, h4⟩
    · omega
    · rw [h2, h4]
      exact ppLoop_mono l P Q p q hP hQ hpq _ 0 c d h0 h1 h3

theorem sum_take_le (l : List Nat) {i j : Nat} (h : i ≤ j) : (l.take i).sum ≤ (l.take j).sum := by
  obtain ⟨m, rfl⟩ := Nat.exists_eq_add_of_le h
  rw [List.take_add, List.sum_append]
  omega

theorem partitionPoint_mono (B h : Nat) (n : Node α) (hs : Shape B h n) (hB : 2 ≤ B) (p q : α → Bool)
    (hpq : ∀ x ∈ n.toList, p x = true → q x = true) {a b : Nat} (ha : n.partitionPoint p = some a) (hb : n.partitionPoint q = some b) : a ≤ b := by
  induction h generalizing n a b with
  | zero =>
    obtain ⟨d, rfl, h⟩ := shape_zero hs
    rw [Node.partitionPoint] at ha hb
    exact slicePP_mono d _ _ p q (by simp) (by simp) (by simpa using hpq) ha hb
  | succ h ih =>
    obtain ⟨cs, rfl, h1, h2, h3⟩ := shape_succ hs
    rw [partitionPoint_internal] at ha hb
    have hfirst : ∀ c ∈ cs, ∃ x l, c.toList = x :: l ∧ c.first = some x := by
      intro c hc
      have := h3 c hc
      have hp := this.1.pos hB this.2
      have hf := first_ok B h c this.1 hB this.2
      cases hcl : c.toList with
      | nil => simp [hcl] at hp
      | cons x l => exact ⟨x, l, rfl, by rw [hf, hcl]; rfl⟩
    have hin : ∀ c ∈ cs, ∀ x ∈ c.toList, x ∈ (Node.internal (cs.map fun c => c.toList.length) cs).toList := by
      intro c hc x hx
      rw [Node.toList_internal, List.mem_flatMap]
      exact ⟨c, hc, hx⟩
    have tot : ∀ p : α → Bool, ∀ c ∈ cs, (fun c : Node α => (c.first).map p) c = some (((c.first).map p).getD false) := by
      intro p c hc
      obtain ⟨x, l, _, hx⟩ := hfirst c hc
      simp [hx]
    have hle : ∀ i j, slicePartitionPoint cs (fun c => (c.first).map p) = some i → slicePartitionPoint cs (fun c => (c.first).map q) = some j → i ≤ j := by
      intro i j hi hj
      refine slicePP_mono cs _ _ _ _ (tot p) (tot q) ?_ hi hj
      intro c hc hcp
      obtain ⟨x, l, hx1, hx⟩ := hfirst c hc
      rw [hx] at hcp ⊢
      simp only [Option.map_some, Option.getD_some] at hcp ⊢
      exact hpq x (hin c hc x (by rw [hx1]; simp)) hcp
    cases hi : slicePartitionPoint cs (fun c => (c.first).map p) with
    | none => rw [hi] at ha; simp at ha
    | some i =>
    cases hj : slicePartitionPoint cs (fun c => (c.first).map q) with
    | none => rw [hj] at hb; simp at hb
    | some j =>
    rw [hi] at ha
    rw [hj] at hb
    have hij := hle i j hi hj
    cases i with
    | zero =>
      simp only [Option.some.injEq] at ha
      omega
    | succ i =>
      cases j with
      | zero => omega
      | succ j =>
        dsimp only at ha hb
        cases hci : cs[i]? with
        | none => rw [hci] at ha; simp at ha
        | some c =>
        cases hcj : cs[j]? with
        | none => rw [hcj] at hb; simp at hb
        | some d =>
        rw [hci] at ha
        rw [hcj] at hb
        dsimp only at ha hb
        cases hr : c.partitionPoint p with
        | none => rw [hr] at ha; simp at ha
        | some r =>
        cases hr' : d.partitionPoint q with
        | none => rw [hr'] at hb; simp at hb
        | some r' =>
        rw [hr] at ha
        rw [hr'] at hb
        dsimp only at ha hb
        by_cases hil : i ≤ (cs.map fun c => c.toList.length).length
        case neg => rw [if_neg hil] at ha; simp at ha
        by_cases hjl : j ≤ (cs.map fun c => c.toList.length).length
        case neg => rw [if_neg hjl] at hb; simp at hb
        rw [if_pos hil] at ha
        rw [if_pos hjl] at hb
        simp only [Option.some.injEq] at ha hb
        have hc := List.mem_of_getElem? hci
        obtain ⟨k, k1, k2, _⟩ := partitionPoint_ok B h c (h3 c hc).1 hB p
        rw [hr, Option.some.injEq] at k1
        rcases Nat.lt_or_eq_of_le (Nat.le_of_succ_le_succ hij) with hlt | heq
        · -- an earlier child
          have hsum : r + ((cs.map fun c => c.toList.length).take i).sum ≤ ((cs.map fun c => c.toList.length).take j).sum := by
            have e1 : (cs.map fun c => c.toList.length).take (i + 1) = (cs.map fun c => c.toList.length).take i ++ [c.toList.length] := by
              rw [List.take_succ, List.getElem?_map, hci]; rfl
            have e2 := sum_take_le (cs.map fun c => c.toList.length) (i := i + 1) (j := j) hlt
            rw [e1, List.sum_append] at e2
            simp only [List.sum_cons, List.sum_nil] at e2
            omega
          omega
        · subst heq
          rw [hci, Option.some.injEq] at hcj
          subst hcj
          have := ih c (h3 c hc).1 (fun x hx => hpq x (hin c hc x hx)) hr hr'
          omega

/-- **C60.** If the predicate `q` is true wherever `p` is, the search with `q` does not end further left than the search with `p`, in every
container and whether or not the predicates are partitioned. -/
theorem C60_partition_point_mono (B : Nat) (hB : 4 ≤ B) (t : TreeVec α) (ht : Reachable B t) (p q : α → Bool)
    (hpq : ∀ x ∈ t.toList, p x = true → q x = true) :
    ∃ a b, t.partitionPoint p = some a ∧ t.partitionPoint q = some b ∧ a ≤ b := by
  obtain ⟨a, ha, _⟩ := C06_partition_point B hB t ht p
  obtain ⟨b, hb, _⟩ := C06_partition_point B hB t ht q
  obtain ⟨h, hs, hw⟩ := C04_reachable_good B hB t ht
  exact ⟨a, b, ha, hb, partitionPoint_mono B h t.root hs (by omega) p q hpq ha hb⟩

/-- A predicate that is not partitioned, and larger ones. -/
example : (⟨.leaf [5, 1, 7]⟩ : TreeVec Nat).partitionPoint (fun x => decide (x = 5)) = some 1 ∧
    (⟨.leaf [5, 1, 7]⟩ : TreeVec Nat).partitionPoint (fun x => decide (x ≠ 1)) = some 1 ∧
    (⟨.leaf [5, 1, 7]⟩ : TreeVec Nat).partitionPoint (fun _ => true) = some 3 := by
  refine ⟨?_, ?_, ?_⟩ <;> simp [TreeVec.partitionPoint, Node.partitionPoint, slicePartitionPoint, ppLoop]

end Verif.TreeVec
