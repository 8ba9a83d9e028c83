import Verif.TreeVec.LemmasRemove

/-! Helper lemmas for `TreeVec` iteration and partition points (no claims). -/

namespace Verif.TreeVec

variable {α β : Type}

/-- non-root node -/
def NR (B : Nat) (n : Node α) : Prop := ∃ h, Shape B h n ∧ B / 2 ≤ n.width

def stackList (st : List (List (Node α))) : List α := st.flatMap fun cs => cs.flatMap Node.toList

def StackOk (B : Nat) (st : List (List (Node α))) : Prop := ∀ cs ∈ st, ∀ c ∈ cs, NR B c

theorem NR.pos {B : Nat} (hB : 2 ≤ B) {n : Node α} (h : NR B n) : n.toList ≠ [] := by
  obtain ⟨k, h1, h2⟩ := h
  have := h1.pos hB h2
  intro h0; simp [h0] at this

theorem descend_ok (B h : Nat) (n : Node α) (hs : Shape B h n) (st : List (List (Node α)))
    (hst : StackOk B st) :
    ∃ st' lf, descend st n = some (st', lf) ∧ StackOk B st' ∧
      lf ++ stackList st' = n.toList ++ stackList st ∧
      (2 ≤ B → B / 2 ≤ n.width → lf ≠ []) := by
  induction h generalizing n st with
  | zero =>
    obtain ⟨d, rfl, h⟩ := shape_zero hs
    refine ⟨st, d, by simp [descend], hst, by simp, ?_⟩
    intro h1 h2 h3; subst h3; simp [Node.width] at h2; omega
  | succ h ih =>
    obtain ⟨cs, rfl, h1, h2, h3⟩ := shape_succ hs
    cases cs with
    | nil => simp at h2
    | cons c cs =>
      have hc := h3 c (by simp)
      obtain ⟨st', lf, e1, e2, e3, e4⟩ := ih c hc.1 (cs :: st) (by
        intro ds hds d hd
        simp at hds
        rcases hds with rfl | hds
        · exact ⟨h, h3 d (by simp [hd])⟩
        · exact hst ds hds d hd)
      refine ⟨st', lf, by simpa [descend] using e1, e2, ?_, fun hB _ => e4 hB hc.2⟩
      rw [e3]; simp [stackList]

theorem unwind_ok (B : Nat) (hB : 2 ≤ B) (st : List (List (Node α))) (hst : StackOk B st) :
    ∃ st' lf r, unwind st = some (st', lf, r) ∧ StackOk B st' ∧ r = (stackList st).head? ∧
      lf ++ stackList st' = (stackList st).tail := by
  induction st with
  | nil => exact ⟨[], [], none, rfl, hst, rfl, rfl⟩
  | cons cs st ih =>
    cases cs with
    | nil =>
      obtain ⟨st', lf, r, e⟩ := ih (fun ds hds => hst ds (by simp [hds]))
      exact ⟨st', lf, r, by simpa [unwind, stackList] using e⟩
    | cons c cs =>
      obtain ⟨h, h1, h2⟩ := hst (c :: cs) (by simp) c (by simp)
      obtain ⟨st', lf, e1, e2, e3, e4⟩ := descend_ok B h c h1 (cs :: st) (by
        intro ds hds d hd
        simp at hds
        rcases hds with rfl | hds
        · exact hst _ (List.mem_cons_self) d (by simp [hd])
        · exact hst ds (by simp [hds]) d hd)
      have hne := e4 hB h2
      have e5 : stackList ((c :: cs) :: st) = lf ++ stackList st' := by
        rw [e3]; simp [stackList]
      cases lf with
      | nil => simp at hne
      | cons x lf =>
        refine ⟨st', lf, some x, by simp [unwind, e1], e2, ?_, ?_⟩ <;> rw [e5] <;> simp

theorem next_ok (B : Nat) (hB : 2 ≤ B) (it : TreeIter α) (hst : StackOk B it.stack) :
    ∃ it' r, it.next = some (it', r) ∧ StackOk B it'.stack ∧
      r = ((it.leaf ++ stackList it.stack).take it.remaining).head? ∧
      (it'.leaf ++ stackList it'.stack).take it'.remaining =
        ((it.leaf ++ stackList it.stack).take it.remaining).tail := by
  obtain ⟨st, lf, rem⟩ := it
  cases rem with
  | zero => exact ⟨_, _, rfl, hst, by simp, by simp⟩
  | succ rem =>
    cases lf with
    | cons x lf => exact ⟨_, _, rfl, hst, by simp, by simp⟩
    | nil =>
      obtain ⟨st', lf, r, e1, e2, e3, e4⟩ := unwind_ok B hB st hst
      refine ⟨⟨st', lf, rem⟩, r, by simp [TreeIter.next, e1], e2, ?_, ?_⟩
      · simp only [e3, List.nil_append]
        cases stackList st <;> simp
      · simp only [List.nil_append, e4]
        cases stackList st <;> simp

theorem collect_tree_ok (B : Nat) (hB : 2 ≤ B) (it : TreeIter α) (hst : StackOk B it.stack)
    (fuel : Nat) (hf : ((it.leaf ++ stackList it.stack).take it.remaining).length < fuel) :
    (Iter.tree it).collect fuel = some ((it.leaf ++ stackList it.stack).take it.remaining) := by
  induction fuel generalizing it with
  | zero => omega
  | succ f ih =>
    obtain ⟨it', r, e1, e2, e3, e4⟩ := next_ok B hB it hst
    generalize hL : (it.leaf ++ stackList it.stack).take it.remaining = L at *
    cases L with
    | nil =>
      simp at e3
      simp [Iter.collect, Iter.next, e1, e3]
    | cons x L =>
      simp at e3 e4
      have := ih it' e2 (by rw [e4]; simp at hf; omega)
      simp [Iter.collect, Iter.next, e1, e3, this, e4]

theorem collect_simple_ok (l : List α) (fuel : Nat) (hf : l.length < fuel) :
    (Iter.simple l).collect fuel = some l := by
  induction fuel generalizing l with
  | zero => omega
  | succ f ih =>
    cases l with
    | nil => simp [Iter.collect, Iter.next]
    | cons x l => simp at hf; simp [Iter.collect, Iter.next, ih l hf]

theorem descendTo_internal (st : List (List (Node α))) (lf : List α) (size : List Nat)
    (children : List (Node α)) (offset : Nat) :
    descendTo st lf (.internal size children) offset =
    match childIdx size offset with
    | none => some (st, lf)
    | some (idx, o) =>
      match children.drop idx with
      | [] => none
      | c :: cs => descendTo (cs :: st) lf c o := by
  rw [descendTo]
  cases childIdx size offset with
  | none => rfl
  | some p =>
    obtain ⟨idx, o⟩ := p
    dsimp only
    split
    · rename_i h; rw [h]
    · rename_i h; rw [h]

theorem descendTo_lt (B h : Nat) (n : Node α) (hs : Shape B h n) (st : List (List (Node α)))
    (hst : StackOk B st) (lf : List α) (o : Nat) (ho : o < n.toList.length) :
    ∃ st' lf', descendTo st lf n o = some (st', lf') ∧ StackOk B st' ∧
      lf' ++ stackList st' = n.toList.drop o ++ stackList st := by
  induction h generalizing n st o with
  | zero =>
    obtain ⟨d, rfl, h⟩ := shape_zero hs
    simp at ho
    refine ⟨st, d.drop o, ?_, hst, by simp⟩
    rw [descendTo, if_pos (by omega)]
  | succ h ih =>
    obtain ⟨cs, rfl, h1, h2, h3⟩ := shape_succ hs
    rw [Node.toList_internal, length_flatMap_sum] at ho
    rw [descendTo_internal]
    obtain ⟨pre, c, post, o', rfl, e2, rfl, e4⟩ := childIdx_spec _ cs o ho
    rw [e2]
    simp only [List.drop_left]
    obtain ⟨st', lf', e5, e6, e7⟩ := ih c (h3 c (by simp)).1 (post :: st) (by
        intro ds hds d hd
        simp at hds
        rcases hds with rfl | hds
        · exact ⟨h, h3 d (by simp [hd])⟩
        · exact hst ds hds d hd) o' e4
    refine ⟨st', lf', e5, e6, ?_⟩
    rw [e7]
    simp only [Node.toList_internal, List.flatMap_append, List.flatMap_cons]
    rw [← length_flatMap_sum, List.drop_append]
    simp [stackList, List.drop_append, Nat.sub_eq_zero_of_le (Nat.le_of_lt e4),
      List.drop_of_length_le]

/-! ### partition point -/

/-- `k` is a boundary of `pred` in `l`: true just before, false at. -/
def Boundary (l : List β) (pred : β → Bool) (k : Nat) : Prop :=
  k ≤ l.length ∧ (∀ j, k = j + 1 → ∃ x, l[j]? = some x ∧ pred x = true) ∧
    (∀ x, l[k]? = some x → pred x = false)

theorem ppLoop_ok (l : List β) (pred : β → Option Bool) (p : β → Bool)
    (hp : ∀ x ∈ l, pred x = some (p x)) (size : Nat) : ∀ base, 1 ≤ size →
    base + size ≤ l.length →
    (base = 0 ∨ ∃ x, l[base]? = some x ∧ p x = true) →
    (∃ f, (f = base + size ∨ f + 1 = base + size) ∧ base < f ∧
      ∀ x, l[f]? = some x → p x = false) →
    ∃ b, ppLoop l pred base size = some b ∧ b < l.length ∧
      (b = 0 ∨ ∃ x, l[b]? = some x ∧ p x = true) ∧ (∀ x, l[b+1]? = some x → p x = false) := by
  induction size using Nat.strongRecOn with
  | _ size ih =>
    intro base h1 h2 h3 h4
    rw [ppLoop]
    by_cases hs : 1 < size
    · rw [if_pos hs]
      have hlt : base + size / 2 < l.length := by omega
      rw [List.getElem?_eq_getElem hlt]
      simp only [hp _ (List.getElem_mem hlt)]
      by_cases hb : p l[base + size/2] = true
      · rw [hb]; simp only [if_true]
        apply ih (size - size/2) (by omega) (base + size/2) (by omega) (by omega)
        · exact .inr ⟨_, List.getElem?_eq_getElem hlt, hb⟩
        · obtain ⟨f, f1, f2, f3⟩ := h4
          refine ⟨f, by omega, ?_, f3⟩
          by_cases hfm : f = base + size/2
          · subst hfm
            have := f3 _ (List.getElem?_eq_getElem hlt)
            rw [hb] at this; simp at this
          · omega
      · simp only [Bool.not_eq_true] at hb
        rw [hb]; simp only [Bool.false_eq_true, if_false]
        apply ih (size - size/2) (by omega) base (by omega) (by omega) h3
        refine ⟨base + size/2, by omega, by omega, ?_⟩
        intro x hx
        rw [List.getElem?_eq_getElem hlt] at hx
        simp at hx; rw [← hx]; exact hb
    · rw [if_neg hs]
      obtain ⟨f, f1, f2, f3⟩ := h4
      have : f = base + 1 := by omega
      subst this
      exact ⟨base, rfl, by omega, h3, f3⟩

theorem slicePP_ok (l : List β) (pred : β → Option Bool) (p : β → Bool)
    (hp : ∀ x ∈ l, pred x = some (p x)) :
    ∃ k, slicePartitionPoint l pred = some k ∧ Boundary l p k := by
  unfold slicePartitionPoint
  by_cases h0 : l.length = 0
  · rw [if_pos h0]
    refine ⟨0, rfl, by omega, by intro j hj; omega, ?_⟩
    intro x hx
    rw [List.getElem?_eq_none (by omega)] at hx; simp at hx
  · rw [if_neg h0]
    obtain ⟨b, e1, e2, e3, e4⟩ := ppLoop_ok l pred p hp l.length 0 (by omega) (by omega) (.inl rfl)
      ⟨l.length, by omega, by omega, by simp⟩
    rw [e1]
    simp only [List.getElem?_eq_getElem e2, hp _ (List.getElem_mem e2)]
    by_cases hb : p l[b] = true
    · refine ⟨b+1, by simp [hb], by omega, ?_, e4⟩
      intro j hj
      have : j = b := by omega
      subst this
      exact ⟨_, List.getElem?_eq_getElem e2, hb⟩
    · simp only [Bool.not_eq_true] at hb
      refine ⟨b, by simp [hb], by omega, ?_, ?_⟩
      · rcases e3 with rfl | ⟨x, hx, hpx⟩
        · intro j hj; omega
        · rw [List.getElem?_eq_getElem e2] at hx
          simp at hx; rw [hx] at hb; rw [hb] at hpx; simp at hpx
      · intro x hx
        rw [List.getElem?_eq_getElem e2] at hx
        simp at hx; rw [← hx]; exact hb

theorem partitionPoint_internal (size : List Nat) (children : List (Node α)) (pred : α → Bool) :
    (Node.internal size children).partitionPoint pred =
    match slicePartitionPoint children (fun c => (c.first).map pred) with
    | none => none
    | some 0 => some 0
    | some (k + 1) =>
      match children[k]? with
      | none => none
      | some c =>
        match c.partitionPoint pred with
        | none => none
        | some r => if k ≤ size.length then some (r + (size.take k).sum) else none := by
  rw [Node.partitionPoint]
  cases slicePartitionPoint children (fun c => (c.first).map pred) with
  | none => rfl
  | some k =>
    cases k with
    | zero => rfl
    | succ k =>
      dsimp only
      split
      · rename_i h; rw [h]
      · rename_i h; rw [h]; rfl

theorem first_ok (B h : Nat) (n : Node α) (hs : Shape B h n) (hB : 2 ≤ B)
    (hw : B / 2 ≤ n.width) : n.first = n.toList.head? := by
  induction h generalizing n with
  | zero => obtain ⟨d, rfl, h⟩ := shape_zero hs; simp [Node.first]
  | succ h ih =>
    obtain ⟨cs, rfl, h1, h2, h3⟩ := shape_succ hs
    cases cs with
    | nil => simp at h2
    | cons c cs =>
      have hc := h3 c (by simp)
      have hp := hc.1.pos hB hc.2
      rw [Node.first, ih c hc.1 hc.2]
      simp only [Node.toList_internal, List.flatMap_cons]
      cases hcl : c.toList with
      | nil => simp [hcl] at hp
      | cons x l => simp

theorem getElem?_flat_mid (pre post : List (Node α)) (c : Node α) (o : Nat)
    (h : o < c.toList.length) :
    ((pre ++ c :: post).flatMap Node.toList)[(pre.flatMap Node.toList).length + o]?
      = c.toList[o]? := by
  rw [List.flatMap_append, List.flatMap_cons, getElem?_mid _ _ _ _ h]

theorem partitionPoint_ok (B h : Nat) (n : Node α) (hs : Shape B h n) (hB : 2 ≤ B)
    (pred : α → Bool) :
    ∃ k, n.partitionPoint pred = some k ∧ Boundary n.toList pred k := by
  induction h generalizing n with
  | zero =>
    obtain ⟨d, rfl, h⟩ := shape_zero hs
    rw [Node.partitionPoint, Node.toList_leaf]
    exact slicePP_ok d _ pred (by simp)
  | succ h ih =>
    obtain ⟨cs, rfl, h1, h2, h3⟩ := shape_succ hs
    rw [partitionPoint_internal]
    have hfirst : ∀ c ∈ cs, ∃ x l, c.toList = x :: l ∧ c.first = some x := by
      intro c hc
      have := h3 c hc
      have hp := this.1.pos hB this.2
      have hf := first_ok B h c this.1 hB this.2
      cases hcl : c.toList with
      | nil => simp [hcl] at hp
      | cons x l => exact ⟨x, l, rfl, by rw [hf, hcl]; rfl⟩
    obtain ⟨k, e1, e2, e3, e4⟩ := slicePP_ok cs (fun c => (c.first).map pred)
      (fun c => ((c.first).map pred).getD false) (by
        intro c hc
        obtain ⟨x, l, _, hx⟩ := hfirst c hc
        simp [hx])
    rw [e1]
    cases k with
    | zero =>
      refine ⟨0, rfl, by omega, by intro j hj; omega, ?_⟩
      cases cs with
      | nil => simp at h2
      | cons c cs =>
        obtain ⟨x, l, hx1, hx2⟩ := hfirst c (by simp)
        have := e4 c (by simp)
        simp [hx2] at this
        intro y hy
        simp [hx1] at hy; rw [← hy]; exact this
    | succ k =>
      have hk : k < cs.length := by omega
      obtain ⟨pre, c, post, rfl, rfl⟩ : ∃ pre c post, cs = pre ++ c :: post ∧ pre.length = k :=
        ⟨cs.take k, cs[k], cs.drop (k+1), by simp, by simp; omega⟩
      simp only [List.getElem?_append_right (Nat.le_refl _), Nat.sub_self,
        List.getElem?_cons_zero]
      obtain ⟨r, r1, r2, r3, r4⟩ := ih c (h3 c (by simp)).1
      rw [r1]
      dsimp only
      rw [if_pos (by simp)]
      obtain ⟨c0, hc0, hpc0⟩ := e3 _ rfl
      simp at hc0
      subst hc0
      obtain ⟨x, l, hx1, hx2⟩ := hfirst c (by simp)
      simp [hx2] at hpc0
      have hr0 : r ≠ 0 := by
        intro h0; subst h0
        have := r4 x (by simp [hx1])
        rw [hpc0] at this; simp at this
      refine ⟨_, rfl, ?_⟩
      have hsum : (((pre ++ c :: post).map fun c => c.toList.length).take pre.length).sum
          = (pre.flatMap Node.toList).length := by
        rw [length_flatMap_sum, ← List.map_take]; simp
      rw [hsum, Node.toList_internal, Nat.add_comm]
      refine ⟨?_, ?_, ?_⟩
      · simp; omega
      · intro j hj
        obtain ⟨r', rfl⟩ : ∃ r', r = r' + 1 := ⟨r - 1, by omega⟩
        obtain ⟨y, hy1, hy2⟩ := r3 r' rfl
        refine ⟨y, ?_, hy2⟩
        have : j = (pre.flatMap Node.toList).length + r' := by omega
        rw [this, getElem?_flat_mid _ _ _ _ (by omega)]; exact hy1
      · intro y hy
        by_cases hr : r < c.toList.length
        · rw [getElem?_flat_mid _ _ _ _ hr] at hy
          exact r4 y hy
        · have hrr : r = c.toList.length := by omega
          subst hrr
          cases post with
          | nil =>
            rw [List.getElem?_eq_none (by simp)] at hy; simp at hy
          | cons d post =>
            obtain ⟨z, l', hz1, hz2⟩ := hfirst d (by simp)
            have := e4 d (by simp)
            simp [hz2] at this
            have hh := getElem?_flat_mid (pre ++ [c]) post d 0 (by simp [hz1])
            simp only [List.append_assoc, List.cons_append, List.nil_append, hz1,
              List.flatMap_append, List.flatMap_cons, List.flatMap_nil, List.append_nil,
              List.length_append, Nat.add_zero] at hh hy
            rw [hh] at hy
            simp at hy
            rw [← hy]; exact this

/-! ### depth -/

theorem size_lower (B : Nat) (h : Nat) (n : Node α) (hs : Shape B h n) :
    n.width * (B/2)^h ≤ n.toList.length := by
  induction h generalizing n with
  | zero => obtain ⟨d, rfl, h⟩ := shape_zero hs; simp [Node.width]
  | succ h ih =>
    obtain ⟨cs, rfl, h1, h2, h3⟩ := shape_succ hs
    simp only [Node.width, Node.toList_internal]
    clear h1 h2 hs
    induction cs with
    | nil => simp
    | cons c cs ih2 =>
      have hc := h3 c (by simp)
      have := ih c hc.1
      have h2 := ih2 (fun d hd => h3 d (by simp [hd]))
      simp only [List.flatMap_cons, List.length_append, List.length_cons, Nat.add_mul,
        Nat.one_mul]
      have h4 : (B/2)^(h+1) ≤ c.toList.length := by
        rw [Nat.pow_succ, Nat.mul_comm]
        exact Nat.le_trans (Nat.mul_le_mul_right _ hc.2) this
      omega

end Verif.TreeVec
