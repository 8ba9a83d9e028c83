import Verif.TreeVec.Lemmas

/-! Helper lemmas for `TreeVec` removal (no claims). -/

namespace Verif.TreeVec

variable {α β : Type}

/-- outcome of merging two siblings of height `h` jointly holding `l` -/
def MergeOkR (B h : Nat) (l : List α) : Node.MergeResult α → Prop
  | .absorbed a _ => Shape B h a ∧ B / 2 ≤ a.width ∧ a.toList = l
  | .rebalanced a b => Shape B h a ∧ Shape B h b ∧ B / 2 ≤ a.width ∧ B / 2 ≤ b.width ∧
      a.toList ++ b.toList = l

def MergeOkL (B h : Nat) (l : List α) : Node.MergeResult α → Prop
  | .absorbed _ b => Shape B h b ∧ B / 2 ≤ b.width ∧ b.toList = l
  | .rebalanced a b => Shape B h a ∧ Shape B h b ∧ B / 2 ≤ a.width ∧ B / 2 ≤ b.width ∧
      a.toList ++ b.toList = l

theorem mergeFromRight_ok (B : Nat) (hB : 4 ≤ B) (h : Nat) (l r : Node α)
    (hl : Shape B h l) (hr : Shape B h r) (wl : l.width + 1 = B / 2) (wr : B / 2 ≤ r.width) :
    ∃ m, Node.mergeFromRight B l r = some m ∧ MergeOkR B h (l.toList ++ r.toList) m := by
  cases h with
  | zero =>
    obtain ⟨l, rfl, hl⟩ := shape_zero hl
    obtain ⟨r, rfl, hr⟩ := shape_zero hr
    simp only [Node.width] at wl wr
    simp only [Node.mergeFromRight]
    rw [if_neg (by omega)]
    split
    · rename_i hle
      rw [avExtend, if_pos hle]
      exact ⟨_, rfl, by simp [MergeOkR, Shape, Node.width]; omega⟩
    · rename_i hle
      have hc : ¬ (r.length - l.length) / 2 = 0 := by omega
      simp only [hc, if_false]
      rw [avExtend, if_pos (by simp; omega)]
      refine ⟨_, rfl, ?_⟩
      simp [MergeOkR, Shape, Node.width]
      omega
  | succ h =>
    obtain ⟨lc, rfl, hl1, hl2, hl3⟩ := shape_succ hl
    obtain ⟨rc, rfl, hr1, hr2, hr3⟩ := shape_succ hr
    simp only [Node.width] at wl wr
    simp only [Node.mergeFromRight]
    split
    · rename_i hle
      simp only [avExtend, List.length_map, hle, if_true]
      refine ⟨_, rfl, ?_⟩
      simp only [MergeOkR]
      rw [← List.map_append]
      refine ⟨shape_mk (by simpa using hle) (by simp; omega) ?_, by simp [Node.width]; omega,
        by simp⟩
      intro c hc; simp at hc; rcases hc with hc | hc
      · exact hl3 c hc
      · exact hr3 c hc
    · rename_i hle
      rw [if_neg (by omega)]
      have hc : ¬ (rc.length - lc.length) / 2 = 0 := by omega
      simp only [hc, if_false, List.length_map]
      rw [if_neg (by omega)]
      have e : lc.length + min ((rc.length - lc.length) / 2) rc.length ≤ B := by omega
      simp only [avExtend, List.length_map, List.length_take, e, if_true]
      refine ⟨_, rfl, ?_⟩
      simp only [MergeOkR]
      rw [← List.map_take, ← List.map_append, ← List.map_drop]
      refine ⟨shape_mk (by simp; omega) (by simp; omega) ?_,
        shape_mk (by simp; omega) (by simp; omega) ?_, by simp [Node.width]; omega,
        by simp [Node.width]; omega, ?_⟩
      · intro c hc; simp at hc; rcases hc with hc | hc
        · exact hl3 c hc
        · exact hr3 c (List.mem_of_mem_take hc)
      · intro c hc; exact hr3 c (List.mem_of_mem_drop hc)
      · simp only [Node.toList_internal]
        rw [← List.flatMap_append, ← List.flatMap_append, List.append_assoc, List.take_append_drop]

theorem list_snoc {l : List β} (h : 1 ≤ l.length) : ∃ a x, l = a ++ [x] := by
  have hne : l ≠ [] := by intro h0; simp [h0] at h
  exact ⟨l.dropLast, l.getLast hne, (List.dropLast_concat_getLast hne).symm⟩

theorem mergeFromLeft_ok (B : Nat) (hB : 4 ≤ B) (h : Nat) (l r : Node α)
    (hl : Shape B h l) (hr : Shape B h r) (wl : B / 2 ≤ l.width) (wr : r.width + 1 = B / 2) :
    ∃ m, Node.mergeFromLeft B l r = some m ∧ MergeOkL B h (l.toList ++ r.toList) m := by
  cases h with
  | zero =>
    obtain ⟨l, rfl, hl⟩ := shape_zero hl
    obtain ⟨r, rfl, hr⟩ := shape_zero hr
    simp only [Node.width] at wl wr
    simp only [Node.mergeFromLeft]
    rw [if_neg (by omega)]
    split
    · rename_i hle
      rw [avExtend, if_pos hle]
      exact ⟨_, rfl, by simp [MergeOkL, Shape, Node.width]; omega⟩
    · rename_i hle
      obtain ⟨a, x, rfl⟩ := list_snoc (l := l) (by omega)
      simp only [List.length_append, List.length_cons, List.length_nil] at *
      simp only [List.getLast?_concat, avInsert, Nat.zero_le, and_true]
      rw [if_pos (by omega)]
      refine ⟨_, rfl, ?_⟩
      simp [MergeOkL, Shape, Node.width]
      omega
  | succ h =>
    obtain ⟨lc, rfl, hl1, hl2, hl3⟩ := shape_succ hl
    obtain ⟨rc, rfl, hr1, hr2, hr3⟩ := shape_succ hr
    simp only [Node.width] at wl wr
    simp only [Node.mergeFromLeft]
    split
    · rename_i hle
      simp only [avExtend, List.length_map, hle, if_true]
      refine ⟨_, rfl, ?_⟩
      simp only [MergeOkL]
      rw [← List.map_append]
      refine ⟨shape_mk (by simpa using hle) (by simp; omega) ?_, by simp [Node.width]; omega,
        by simp⟩
      intro c hc; simp at hc; rcases hc with hc | hc
      · exact hl3 c hc
      · exact hr3 c hc
    · rename_i hle
      obtain ⟨a, x, rfl⟩ := list_snoc (l := lc) (by omega)
      simp only [List.length_append, List.length_cons, List.length_nil] at *
      have e : rc.length < B := by omega
      simp only [List.map_append, List.map_cons, List.map_nil, List.getLast?_concat, avInsert,
        Nat.zero_le, and_true, List.length_map, e, if_true]
      refine ⟨_, rfl, ?_⟩
      simp only [MergeOkL, List.insertIdx_zero, List.dropLast_concat]
      rw [← List.map_cons (f := fun c : Node α => c.toList.length)]
      refine ⟨shape_mk (by omega) (by omega) (fun c hc => hl3 c (by simp [hc])),
        shape_mk (by simp; omega) (by simp) ?_, by simp [Node.width]; omega,
        by simp [Node.width]; omega, by simp⟩
      intro c hc
      simp at hc
      rcases hc with rfl | hc
      · exact hl3 c (by simp)
      · exact hr3 c hc

/-- outcome of `fixUndersize` -/
theorem fixUndersize_ok (B : Nat) (hB : 4 ≤ B) (h : Nat) (pre post : List (Node α)) (c : Node α)
    (h1 : (pre ++ c :: post).length ≤ B) (h2 : 2 ≤ (pre ++ c :: post).length)
    (hp : ∀ d ∈ pre ++ post, Shape B h d ∧ B / 2 ≤ d.width)
    (hc : Shape B h c) (wc : c.width + 1 = B / 2) :
    ∃ n u, Node.fixUndersize B ((pre ++ c :: post).map fun c => c.toList.length) (pre ++ c :: post)
        pre.length = some (n, u) ∧ Shape B (h+1) n ∧
      n.toList = (pre ++ c :: post).flatMap Node.toList ∧
      (pre ++ c :: post).length ≤ n.width + 1 ∧
      n.width ≤ (pre ++ c :: post).length ∧
      (u = true → n.width < B / 2) ∧ (u = false → n.width < B/2 →
        n.width = (pre ++ c :: post).length)  := by
  unfold Node.fixUndersize
  cases post with
  | cons next post =>
    rw [if_pos (by simp)]
    have g1 : (pre ++ c :: next :: post)[pre.length]? = some c := by simp
    have g2 : (pre ++ c :: next :: post)[pre.length + 1]? = some next := by
      simp
    rw [g1, g2]
    have hnext := hp next (by simp)
    obtain ⟨m, hm, hok⟩ := mergeFromRight_ok B hB h c next hc hnext.1 wc hnext.2
    simp only [hm]
    have hset : ∀ a b : Node α, ((pre ++ c :: next :: post).set pre.length a).set (pre.length + 1) b
        = pre ++ a :: b :: post := by intro a b; simp
    have hsetn : ∀ a b : Nat, (((pre ++ c :: next :: post).map fun c => c.toList.length).set
        pre.length a).set (pre.length + 1) b
        = (pre.map fun c => c.toList.length) ++ a :: b :: (post.map fun c => c.toList.length) := by
      intro a b
      have := List.length_map (as := pre) (fun c => c.toList.length)
      simp
    cases m with
    | absorbed a b =>
      simp only [MergeOkR] at hok
      simp only [hset]
      have r1 : avRemove (pre ++ a :: b :: post) (pre.length + 1) = some (b, pre ++ a :: post) := by
        simp [avRemove, List.eraseIdx_append_of_length_le]
      have r2 : setIdx ((pre ++ c :: next :: post).map fun c => c.toList.length) pre.length
          a.subtreeSize = some ((pre.map fun c => c.toList.length) ++ a.toList.length ::
            next.toList.length :: (post.map fun c => c.toList.length)) := by
        simp [setIdx, hok.1.subtreeSize]
      have r3 : avRemove ((pre.map fun c => c.toList.length) ++ a.toList.length ::
            next.toList.length :: (post.map fun c => c.toList.length)) (pre.length + 1)
          = some (next.toList.length, (pre ++ a :: post).map fun c => c.toList.length) := by
        simp [avRemove, List.eraseIdx_append_of_length_le]
      simp only [r1, r2, r3, Option.bind_eq_bind, Option.bind_some, Option.pure_def]
      refine ⟨_, _, rfl, shape_mk ?_ ?_ ?_, ?_, ?_, ?_, ?_, ?_⟩
      · simp at h1 ⊢; omega
      · simp; omega
      · intro d hd; simp at hd
        rcases hd with hd | rfl | hd
        · exact hp d (by simp [hd])
        · exact ⟨hok.1, hok.2.1⟩
        · exact hp d (by simp [hd])
      · simp [hok.2.2]
      · simp [Node.width]
        omega
      · simp [Node.width]
      · simp [Node.width]
      · simp [Node.width]
    | rebalanced a b =>
      simp only [MergeOkR] at hok
      obtain ⟨k1, k2, k3, k4, k5⟩ := hok
      simp only [hset]
      have r2 : setIdx ((pre ++ c :: next :: post).map fun c => c.toList.length) pre.length
          a.subtreeSize = some ((pre.map fun c => c.toList.length) ++ a.toList.length ::
            next.toList.length :: (post.map fun c => c.toList.length)) := by
        simp [setIdx, k1.subtreeSize]
      have r3 : setIdx ((pre.map fun c => c.toList.length) ++ a.toList.length ::
            next.toList.length :: (post.map fun c => c.toList.length)) (pre.length + 1) b.subtreeSize
          = some ((pre ++ a :: b :: post).map fun c => c.toList.length) := by
        simp [setIdx, k2.subtreeSize]
      simp only [r2, r3, Option.bind_eq_bind, Option.bind_some, Option.pure_def]
      refine ⟨_, _, rfl, shape_mk ?_ ?_ ?_, ?_, ?_, ?_, ?_, ?_⟩
      · simp at h1 ⊢; omega
      · simp; omega
      · intro d hd; simp at hd
        rcases hd with hd | rfl | rfl | hd
        · exact hp d (by simp [hd])
        · exact ⟨k1, k3⟩
        · exact ⟨k2, k4⟩
        · exact hp d (by simp [hd])
      · have : a.toList ++ (b.toList ++ post.flatMap Node.toList) = c.toList ++ (next.toList ++ post.flatMap Node.toList) := by
          rw [← List.append_assoc, k5, List.append_assoc]
        simp [this]
      · simp [Node.width]
      · simp [Node.width]
      · simp
      · simp [Node.width]
  | nil =>
    obtain ⟨pre, prev, rfl⟩ := list_snoc (l := pre) (by simp at h2; omega)
    simp only [List.length_append, List.length_cons, List.length_nil, Nat.zero_add,
      Nat.lt_irrefl, if_false, Nat.add_sub_cancel, Nat.add_eq_zero_iff, Nat.one_ne_zero, and_false]
    simp only [List.append_assoc, List.cons_append, List.nil_append]
    have g1 : (pre ++ prev :: [c])[pre.length]? = some prev := by simp
    have g2 : (pre ++ prev :: [c])[pre.length + 1]? = some c := by
      simp
    rw [g1, g2]
    have hprev := hp prev (by simp)
    obtain ⟨m, hm, hok⟩ := mergeFromLeft_ok B hB h prev c hprev.1 hc hprev.2 wc
    simp only [hm]
    have hset : ∀ a b : Node α, ((pre ++ prev :: [c]).set pre.length a).set (pre.length + 1) b
        = pre ++ [a, b] := by intro a b; simp
    cases m with
    | absorbed a b =>
      simp only [MergeOkL] at hok
      simp only [hset]
      have r1 : avRemove (pre ++ [a, b]) pre.length = some (a, pre ++ [b]) := by
        simp [avRemove, List.eraseIdx_append_of_length_le]
      have r2 : setIdx ((pre ++ [prev, c]).map fun c => c.toList.length) (pre.length + 1)
          b.subtreeSize = some ((pre.map fun c => c.toList.length) ++ [prev.toList.length,
            b.toList.length]) := by
        simp [setIdx, hok.1.subtreeSize]
      have r3 : avRemove ((pre.map fun c => c.toList.length) ++ [prev.toList.length,
            b.toList.length]) pre.length
          = some (prev.toList.length, (pre ++ [b]).map fun c => c.toList.length) := by
        simp [avRemove, List.eraseIdx_append_of_length_le]
      simp only [r1, r2, r3, Option.bind_eq_bind, Option.bind_some, Option.pure_def]
      refine ⟨_, _, rfl, shape_mk ?_ ?_ ?_, ?_, ?_, ?_, ?_, ?_⟩
      · simp at h1 ⊢; omega
      · simp
      · intro d hd; simp at hd
        rcases hd with hd | rfl
        · exact hp d (by simp [hd])
        · exact ⟨hok.1, hok.2.1⟩
      · simp [hok.2.2]
      · simp [Node.width]
      · simp [Node.width]
      · simp [Node.width]
      · simp [Node.width]
    | rebalanced a b =>
      simp only [MergeOkL] at hok
      obtain ⟨k1, k2, k3, k4, k5⟩ := hok
      simp only [hset]
      have r2 : setIdx ((pre ++ [prev, c]).map fun c => c.toList.length) pre.length
          a.subtreeSize = some ((pre.map fun c => c.toList.length) ++ [a.toList.length,
            c.toList.length]) := by
        simp [setIdx, k1.subtreeSize]
      have r3 : setIdx ((pre.map fun c => c.toList.length) ++ [a.toList.length,
            c.toList.length]) (pre.length + 1) b.subtreeSize
          = some ((pre ++ [a, b]).map fun c => c.toList.length) := by
        simp [setIdx, k2.subtreeSize]
      simp only [r2, r3, Option.bind_eq_bind, Option.bind_some, Option.pure_def]
      refine ⟨_, _, rfl, shape_mk ?_ ?_ ?_, ?_, ?_, ?_, ?_, ?_⟩
      · simp at h1 ⊢; omega
      · simp
      · intro d hd; simp at hd
        rcases hd with hd | rfl | rfl
        · exact hp d (by simp [hd])
        · exact ⟨k1, k3⟩
        · exact ⟨k2, k4⟩
      · simp [k5]
      · simp [Node.width]
      · simp [Node.width]
      · simp
      · simp [Node.width]

/-- Outcome of `Node::remove`. -/
theorem remove_ok (B : Nat) (hB : 4 ≤ B) (h : Nat) (n : Node α) (hs : Shape B h n)
    (hw : h ≠ 0 → 2 ≤ n.width) (o : Nat) (ho : o < n.toList.length) :
    ∃ x n' u, n.remove B o = some (x, n', u) ∧ n.toList[o]? = some x ∧ Shape B h n' ∧
      n'.toList = n.toList.eraseIdx o ∧ n.width ≤ n'.width + 1 ∧ n'.width ≤ n.width ∧
      (u = true → n'.width < B / 2) ∧ (u = false → B/2 ≤ n.width → B / 2 ≤ n'.width) := by
  induction h generalizing n o with
  | zero =>
    obtain ⟨d, rfl, h⟩ := shape_zero hs
    simp at ho
    rw [Node.remove]
    simp only [avRemove, List.getElem?_eq_getElem ho]
    refine ⟨_, _, _, rfl, by simp [ho], ?_, by simp, ?_, ?_, ?_, ?_⟩
    · simp [Shape, List.length_eraseIdx]; split <;> omega
    · simp [Node.width, List.length_eraseIdx]; split <;> omega
    · simp [Node.width, List.length_eraseIdx]; split <;> omega
    · simp [Node.width]
    · simp [Node.width]
      omega
  | succ h ih =>
    obtain ⟨cs, rfl, h1, h2, h3⟩ := shape_succ hs
    rw [Node.toList_internal, length_flatMap_sum] at ho
    obtain ⟨pre, c, post, o', rfl, e2, rfl, e4⟩ := childIdx_spec _ cs o ho
    have hc := h3 c (by simp)
    obtain ⟨x, c', u, hr, k1, k2, k3, k4, k5, k6, k7⟩ := ih c hc.1 (fun _ => by omega) o' e4
    have hs1 : ((pre ++ c :: post).map fun c => c.toList.length)[pre.length]?
        = some (c'.toList.length + 1) := by
      simp [k3, List.length_eraseIdx, e4]; omega
    have hs2 : ((pre ++ c :: post).map fun c => c.toList.length).set pre.length c'.toList.length
        = (pre ++ c' :: post).map fun c => c.toList.length := by simp
    have hlist : (Node.internal ((pre ++ c :: post).map fun c => c.toList.length)
        (pre ++ c :: post)).toList.eraseIdx ((pre.map fun c => c.toList.length).sum + o')
        = (pre ++ c' :: post).flatMap Node.toList := by
      rw [Node.toList_internal, List.flatMap_append, List.flatMap_cons, ← length_flatMap_sum,
        eraseIdx_mid _ _ _ _ e4]
      simp [k3]
    have hget : (Node.internal ((pre ++ c :: post).map fun c => c.toList.length)
        (pre ++ c :: post)).toList[(pre.map fun c => c.toList.length).sum + o']? = some x := by
      rw [Node.toList_internal, List.flatMap_append, List.flatMap_cons, ← length_flatMap_sum,
        getElem?_mid _ _ _ _ e4, k1]
    rw [remove_internal, e2]
    simp only [hs1, List.getElem?_append_right (Nat.le_refl _), Nat.sub_self,
      List.getElem?_cons_zero, hr]
    rw [hlist, hget]
    cases u with
    | false =>
      simp only [hs2, set_mid]
      refine ⟨_, _, _, rfl, rfl, shape_mk (by simpa using h1) (by simp; omega) ?_, by simp, by simp [Node.width], by simp [Node.width], by simp,
        fun _ hx => by simpa [Node.width] using hx⟩
      intro d hd
      simp at hd
      rcases hd with hd | rfl | hd
      · exact h3 d (by simp [hd])
      · exact ⟨k2, k7 rfl hc.2⟩
      · exact h3 d (by simp [hd])
    | true =>
      simp only [hs2, set_mid]
      have hw := hw (by simp)
      obtain ⟨n', u, f1, f2, f3, f4, f5, f6, f7⟩ := fixUndersize_ok B hB h pre post c'
        (by simpa using h1) (by simpa [Node.width] using hw)
        (by
          intro d hd
          simp at hd
          rcases hd with hd | hd
          · exact h3 d (by simp [hd])
          · exact h3 d (by simp [hd]))
        k2 (by have := k6 rfl; omega)
      rw [f1]
      refine ⟨_, _, _, rfl, rfl, f2, f3, ?_, ?_, f6, ?_⟩
      · simpa [Node.width] using f4
      · simpa [Node.width] using f5
      · intro hu hlo
        by_cases hx : n'.width < B / 2
        · have := f7 hu hx
          have e : (Node.internal ((pre ++ c :: post).map fun c => c.toList.length)
            (pre ++ c :: post)).width = (pre ++ c' :: post).length := by simp [Node.width]
          omega
        · omega

theorem remove_oob (B h : Nat) (n : Node α) (hs : Shape B h n) (o : Nat)
    (ho : n.toList.length ≤ o) : n.remove B o = none := by
  cases h with
  | zero =>
    obtain ⟨d, rfl, h⟩ := shape_zero hs
    simp at ho
    rw [Node.remove]
    simp [avRemove, List.getElem?_eq_none ho]
  | succ h =>
    obtain ⟨cs, rfl, h1, h2, h3⟩ := shape_succ hs
    rw [Node.toList_internal, length_flatMap_sum] at ho
    rw [remove_internal, childIdx_none _ _ ho]

end Verif.TreeVec
