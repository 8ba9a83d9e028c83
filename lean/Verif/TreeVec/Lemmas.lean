import Verif.TreeVec.Spec

/-! Helper lemmas for `TreeVec` (no claims). -/

namespace Verif.TreeVec

variable {α β : Type}

@[simp] theorem Node.toList_leaf (d : List α) : (Node.leaf d).toList = d := by
  simp [Node.toList]

@[simp] theorem Node.toList_internal (s : List Nat) (cs : List (Node α)) :
    (Node.internal s cs).toList = cs.flatMap Node.toList := by
  rw [Node.toList]; simp [List.flatMap]

/-! ### equations without dependent matches -/

theorem get_internal (size : List Nat) (children : List (Node α)) (offset : Nat) :
    (Node.internal size children).get offset =
      match childIdx size offset with
      | none => some none
      | some (idx, o) =>
        match children[idx]? with
        | none => none
        | some c => c.get o := by
  rw [Node.get]
  cases childIdx size offset with
  | none => rfl
  | some p =>
    obtain ⟨idx, o⟩ := p
    dsimp only
    split <;> simp_all

theorem setAt_internal (size : List Nat) (children : List (Node α)) (offset : Nat) (x : α) :
    (Node.internal size children).setAt offset x =
      match childIdx size offset with
      | none => some none
      | some (idx, o) =>
        match children[idx]? with
        | none => none
        | some c =>
          match c.setAt o x with
          | none => none
          | some none => some none
          | some (some c') => some (some (.internal size (children.set idx c'))) := by
  rw [Node.setAt]
  cases childIdx size offset with
  | none => rfl
  | some p =>
    obtain ⟨idx, o⟩ := p
    dsimp only
    split
    · simp_all
    · rename_i h; rw [h]; rfl

theorem insert_internal (B : Nat) (size : List Nat) (children : List (Node α)) (offset : Nat)
    (x : α) :
    (Node.internal size children).insert B offset x =
      match Node.insertPos size offset with
      | none => none
      | some (idx, o) =>
        match children[idx]? with
        | none => none
        | some c =>
          match c.insert B o x with
          | none => none
          | some (c', none) =>
            match size[idx]? with
            | none => none
            | some s => some (.internal (size.set idx (s + 1)) (children.set idx c'), none)
          | some (c', some node) => Node.insertSplit B size children idx c' node := by
  rw [Node.insert]
  cases Node.insertPos size offset with
  | none => rfl
  | some p =>
    obtain ⟨idx, o⟩ := p
    dsimp only
    split
    · simp_all
    · rename_i h; rw [h]; rfl

theorem remove_internal (B : Nat) (size : List Nat) (children : List (Node α)) (offset : Nat) :
    (Node.internal size children).remove B offset =
      match childIdx size offset with
      | none => none
      | some (idx, o) =>
        match size[idx]? with
        | none => none
        | some 0 => none
        | some (s + 1) =>
          match children[idx]? with
          | none => none
          | some c =>
            match c.remove B o with
            | none => none
            | some (x, c', false) =>
              some (x, .internal (size.set idx s) (children.set idx c'), false)
            | some (x, c', true) =>
              match Node.fixUndersize B (size.set idx s) (children.set idx c') idx with
              | none => none
              | some (n', under) => some (x, n', under) := by
  rw [Node.remove]
  cases childIdx size offset with
  | none => rfl
  | some p =>
    obtain ⟨idx, o⟩ := p
    dsimp only
    cases size[idx]? with
    | none => rfl
    | some s =>
      cases s with
      | zero => rfl
      | succ s =>
        dsimp only
        split
        · simp_all
        · rename_i h; rw [h]; rfl

/-! ### list lemmas -/

theorem insertIdx_eq (l : List β) (i : Nat) (x : β) (h : i ≤ l.length) :
    l.insertIdx i x = l.take i ++ x :: l.drop i := by
  induction l generalizing i with
  | nil => simp at h; subst h; simp
  | cons a l ih =>
    cases i with
    | zero => simp
    | succ i => simp at h; simp [ih i h]

theorem insertIdx_mid (a b c : List β) (o : Nat) (x : β) (h : o ≤ b.length) :
    (a ++ (b ++ c)).insertIdx (a.length + o) x = a ++ (b.insertIdx o x ++ c) := by
  rw [insertIdx_eq _ _ _ (by simp; omega), insertIdx_eq _ _ _ h]
  simp [List.take_append, List.drop_append, Nat.sub_eq_zero_of_le h,
    List.take_of_length_le (Nat.le_add_right a.length o),
    List.drop_of_length_le (Nat.le_add_right a.length o)]

theorem eraseIdx_mid (a b c : List β) (o : Nat) (h : o < b.length) :
    (a ++ (b ++ c)).eraseIdx (a.length + o) = a ++ (b.eraseIdx o ++ c) := by
  simp [List.eraseIdx_eq_take_drop_succ, List.take_append, List.drop_append, 
    Nat.sub_eq_zero_of_le (Nat.le_of_lt h), Nat.sub_eq_zero_of_le (Nat.succ_le_of_lt h), 
    Nat.add_assoc, List.take_of_length_le (Nat.le_add_right a.length o),
    List.drop_of_length_le (Nat.le_add_right a.length (o+1))]

theorem getElem?_mid (a b c : List β) (o : Nat) (h : o < b.length) :
    (a ++ (b ++ c))[a.length + o]? = b[o]? := by
  rw [List.getElem?_append_right (by omega)]
  simp [List.getElem?_append_left h]

theorem set_mid (a c : List β) (b x : β) :
    (a ++ b :: c).set a.length x = a ++ x :: c := by simp

theorem insertIdx_after (a c : List β) (b x : β) :
    (a ++ b :: c).insertIdx (a.length + 1) x = a ++ b :: x :: c := by
  have := insertIdx_mid a [b] c 1 x (by simp)
  simpa using this

theorem length_insertIdx' (l : List β) (i : Nat) (x : β) (h : i ≤ l.length) :
    (l.insertIdx i x).length = l.length + 1 := by
  simp [List.length_insertIdx, h]

theorem map_insertIdx' {γ : Type} (f : β → γ) (l : List β) (i : Nat) (x : β) (h : i ≤ l.length) :
    (l.insertIdx i x).map f = (l.map f).insertIdx i (f x) := by
  rw [insertIdx_eq _ _ _ h, insertIdx_eq _ _ _ (by simpa using h)]
  simp

/-- total number of elements -/
theorem length_flatMap_sum (cs : List (Node α)) :
    (cs.flatMap Node.toList).length = (cs.map (fun c => c.toList.length)).sum := by
  simp [List.length_flatMap]

theorem childIdx_spec (f : β → Nat) (cs : List β) (o : Nat) (h : o < (cs.map f).sum) :
    ∃ pre c post o', cs = pre ++ c :: post ∧ childIdx (cs.map f) o = some (pre.length, o') ∧
      o = (pre.map f).sum + o' ∧ o' < f c := by
  induction cs generalizing o with
  | nil => simp at h
  | cons a cs ih =>
    by_cases hlt : f a > o
    · exact ⟨[], a, cs, o, by simp, by simp [childIdx, hlt], by simp, hlt⟩
    · have : o - f a < (cs.map f).sum := by simp at h; omega
      obtain ⟨pre, c, post, o', h1, h2, h3, h4⟩ := ih _ this
      refine ⟨a :: pre, c, post, o', by simp [h1], ?_, by simp; omega, h4⟩
      simp [childIdx, hlt, h2]

theorem childIdx_none (sz : List Nat) (o : Nat) (h : sz.sum ≤ o) : childIdx sz o = none := by
  induction sz generalizing o with
  | nil => rfl
  | cons a cs ih =>
    simp at h
    simp [childIdx, ih (o - a) (by omega)]; omega

theorem Shape.subtreeSize {B h : Nat} {n : Node α} (hs : Shape B h n) :
    n.subtreeSize = n.toList.length := by
  cases n with
  | leaf d => simp [Node.subtreeSize]
  | internal s cs =>
    cases h with
    | zero => simp [Shape] at hs
    | succ h =>
      simp only [Shape] at hs
      rw [Node.subtreeSize, hs.1, Node.toList_internal, length_flatMap_sum]

theorem shape_zero {B : Nat} {n : Node α} (hs : Shape B 0 n) : ∃ d, n = .leaf d ∧ d.length ≤ B := by
  cases n with
  | leaf d => exact ⟨d, rfl, by simpa [Shape] using hs⟩
  | internal s cs => simp [Shape] at hs

theorem shape_succ {B h : Nat} {n : Node α} (hs : Shape B (h+1) n) :
    ∃ cs, n = .internal (cs.map fun c => c.toList.length) cs ∧ cs.length ≤ B ∧ 1 ≤ cs.length ∧
      ∀ c ∈ cs, Shape B h c ∧ B / 2 ≤ c.width := by
  cases n with
  | leaf d => simp [Shape] at hs
  | internal s cs =>
    simp only [Shape] at hs
    obtain ⟨rfl, h⟩ := hs
    exact ⟨cs, rfl, h⟩

theorem shape_mk {B h : Nat} {cs : List (Node α)} (h1 : cs.length ≤ B) (h2 : 1 ≤ cs.length)
    (h3 : ∀ c ∈ cs, Shape B h c ∧ B / 2 ≤ c.width) :
    Shape B (h+1) (.internal (cs.map fun c => c.toList.length) cs) := by
  simp only [Shape]; exact ⟨trivial, h1, h2, h3⟩

theorem Shape.width_le {B h : Nat} {n : Node α} (hs : Shape B h n) : n.width ≤ B := by
  cases h with
  | zero => obtain ⟨d, rfl, h⟩ := shape_zero hs; exact h
  | succ h => obtain ⟨cs, rfl, h, _⟩ := shape_succ hs; exact h

/-- a non-root node is non-empty -/
theorem Shape.pos {B h : Nat} {n : Node α} (hB : 2 ≤ B) (hs : Shape B h n) (hw : B / 2 ≤ n.width) :
    0 < n.toList.length := by
  induction h generalizing n with
  | zero => obtain ⟨d, rfl, h⟩ := shape_zero hs; simp [Node.width] at *; omega
  | succ h ih =>
    obtain ⟨cs, rfl, h1, h2, h3⟩ := shape_succ hs
    cases cs with
    | nil => simp at h2
    | cons c cs =>
      have := h3 c (by simp)
      have := ih this.1 this.2
      simp; omega

/-! ### get / set -/

theorem Shape.get {B h : Nat} {n : Node α} (hs : Shape B h n) (o : Nat) :
    n.get o = some n.toList[o]? := by
  induction h generalizing n o with
  | zero => obtain ⟨d, rfl, h⟩ := shape_zero hs; simp [Node.get]
  | succ h ih =>
    obtain ⟨cs, rfl, h1, h2, h3⟩ := shape_succ hs
    rw [get_internal]
    by_cases ho : o < (cs.map fun c => c.toList.length).sum
    · obtain ⟨pre, c, post, o', rfl, e2, rfl, e4⟩ := childIdx_spec _ cs o ho
      rw [e2]
      simp only [List.getElem?_append_right (Nat.le_refl _), Nat.sub_self, List.getElem?_cons_zero]
      rw [ih (h3 c (by simp)).1, Node.toList_internal, List.flatMap_append, List.flatMap_cons,
        ← length_flatMap_sum, getElem?_mid _ _ _ _ e4]
    · rw [childIdx_none _ _ (by omega)]
      simp only [Node.toList_internal]
      rw [List.getElem?_eq_none]
      rw [length_flatMap_sum]; omega

theorem set_mid' (a b c : List β) (o : Nat) (x : β) (h : o < b.length) :
    (a ++ (b ++ c)).set (a.length + o) x = a ++ (b.set o x ++ c) := by
  rw [List.set_append_right _ _ (by omega)]
  simp [List.set_append_left _ _ h]

theorem Shape.setAt {B h : Nat} {n : Node α} (hs : Shape B h n) (o : Nat) (x : α) :
    if o < n.toList.length then
      ∃ n', n.setAt o x = some (some n') ∧ Shape B h n' ∧ n'.width = n.width ∧
        n'.toList = n.toList.set o x
    else n.setAt o x = some none := by
  induction h generalizing n o with
  | zero =>
    obtain ⟨d, rfl, h⟩ := shape_zero hs
    simp only [Node.toList_leaf]
    split
    · rename_i ho
      exact ⟨.leaf (d.set o x), by simp [Node.setAt, ho], by simp [Shape, h], by simp [Node.width],
        by simp⟩
    · rename_i ho; simp [Node.setAt]; omega
  | succ h ih =>
    obtain ⟨cs, rfl, h1, h2, h3⟩ := shape_succ hs
    rw [Node.toList_internal, length_flatMap_sum]
    split
    · rename_i ho
      rw [setAt_internal]
      obtain ⟨pre, c, post, o', rfl, e2, rfl, e4⟩ := childIdx_spec _ cs o ho
      rw [e2]
      simp only [List.getElem?_append_right (Nat.le_refl _), Nat.sub_self, List.getElem?_cons_zero]
      have hc := ih (h3 c (by simp)).1 o'
      rw [if_pos e4] at hc
      obtain ⟨c', hc1, hc2, hc3, hc4⟩ := hc
      rw [hc1]
      refine ⟨_, rfl, ?_, ?_, ?_⟩
      · rw [set_mid]
        have : (pre ++ c :: post).map (fun c => c.toList.length)
          = (pre ++ c' :: post).map (fun c => c.toList.length) := by simp [hc4]
        rw [this]
        refine shape_mk (by simpa using h1) (by simpa using h2) ?_
        intro d hd
        simp at hd
        rcases hd with hd | rfl | hd
        · exact h3 d (by simp [hd])
        · exact ⟨hc2, hc3 ▸ (h3 c (by simp)).2⟩
        · exact h3 d (by simp [hd])
      · simp [Node.width]
      · rw [Node.toList_internal, set_mid, List.flatMap_append, List.flatMap_cons, hc4,
          ← length_flatMap_sum, ← set_mid' _ _ _ _ _ e4]
        simp [List.flatMap_append]
    · rename_i ho
      rw [setAt_internal, childIdx_none _ _ (by omega)]

/-! ### insert -/

/-- outcome of an insertion into a subtree of height `h` holding `l` -/
def InsOk (B h : Nat) (w : Nat) (l : List α) : Node α × Option (Node α) → Prop
  | (n, none) => Shape B h n ∧ n.toList = l ∧ w ≤ n.width
  | (n, some m) => Shape B h n ∧ Shape B h m ∧ B / 2 ≤ n.width ∧ B / 2 ≤ m.width ∧
      n.toList ++ m.toList = l

theorem split_insert (B : Nat) (hB : 2 ≤ B) (l : List β) (hl : l.length = B) (i : Nat) (hi : i ≤ B)
    (x : β) :
    if i ≤ B / 2 then
      avInsert B (l.take (B/2)) i x = some ((l.take (B/2)).insertIdx i x) ∧
      (l.take (B/2)).insertIdx i x ++ l.drop (B/2) = l.insertIdx i x
    else
      avInsert B (l.drop (B/2)) (i - B/2) x = some ((l.drop (B/2)).insertIdx (i - B/2) x) ∧
      (l.take (B/2)) ++ (l.drop (B/2)).insertIdx (i - B/2) x = l.insertIdx i x := by
  split
  · rename_i h
    have e : (l.take (B/2)).length = B/2 := by simp; omega
    refine ⟨by rw [avInsert, if_pos (by omega)], ?_⟩
    have := insertIdx_mid [] (l.take (B/2)) (l.drop (B/2)) i x (by omega)
    simpa using this.symm
  · rename_i h
    have e : (l.take (B/2)).length = B/2 := by simp; omega
    refine ⟨by rw [avInsert, if_pos (by simp; omega)], ?_⟩
    have := insertIdx_mid (l.take (B/2)) (l.drop (B/2)) [] (i - B/2) x (by simp; omega)
    rw [e] at this
    simp only [List.append_nil, List.take_append_drop] at this
    rw [← this]; congr 1; omega

theorem insertLeaf_ok (B : Nat) (hB : 2 ≤ B) (d : List α) (hd : d.length ≤ B) (o : Nat)
    (ho : o ≤ d.length) (x : α) :
    ∃ r, Node.insertLeaf B d o x = some r ∧ InsOk B 0 d.length (d.insertIdx o x) r := by
  unfold Node.insertLeaf
  by_cases hf : d.length = B
  · have key := split_insert B hB d hf o (by omega) x
    simp only [hf, if_true, avDrainFrom, Nat.div_le_self]
    by_cases hh : o ≤ B / 2
    · rw [if_pos hh] at key
      simp only [hh, if_true, key.1, Option.bind_eq_bind, Option.bind_some, Option.pure_def]
      refine ⟨_, rfl, ?_⟩
      simp only [InsOk, Shape, Node.width, Node.toList_leaf]
      refine ⟨?_, ?_, ?_, ?_, key.2⟩ <;>
      (simp [hf, List.length_insertIdx] <;> (try split) <;> omega)
    · rw [if_neg hh] at key
      simp only [hh, if_false, key.1, Option.bind_eq_bind, Option.bind_some, Option.pure_def]
      refine ⟨_, rfl, ?_⟩
      simp only [InsOk, Shape, Node.width, Node.toList_leaf]
      refine ⟨?_, ?_, ?_, ?_, key.2⟩ <;>
      (simp [hf, List.length_insertIdx] <;> (try split) <;> omega)
  · rw [if_neg hf]
    simp only [avInsert, show d.length < B from by omega, ho, and_self, if_true,
      Option.bind_eq_bind, Option.bind_some, Option.pure_def]
    refine ⟨_, rfl, ?_⟩
    simp only [InsOk, Shape, Node.width, Node.toList_leaf]
    rw [length_insertIdx' _ _ _ ho]
    exact ⟨by omega, trivial, by omega⟩

theorem mem_insertIdx' {l : List β} {i : Nat} {x y : β} (h : i ≤ l.length)
    (hy : y ∈ l.insertIdx i x) : y = x ∨ y ∈ l := by
  rw [insertIdx_eq _ _ _ h] at hy
  simp at hy
  rcases hy with hy | hy | hy
  · exact .inr (List.mem_of_mem_take hy)
  · exact .inl hy
  · exact .inr (List.mem_of_mem_drop hy)

/-- `insertSplit` on well-formed data. -/
theorem insertSplit_ok (B h : Nat) (hB : 2 ≤ B) (pre post : List (Node α)) (c c' node : Node α)
    (h1 : (pre ++ c :: post).length ≤ B)
    (h3 : ∀ d ∈ pre ++ c :: post, Shape B h d ∧ B / 2 ≤ d.width)
    (hc' : Shape B h c') (hn : Shape B h node) (wc' : B/2 ≤ c'.width) (wn : B/2 ≤ node.width) :
    ∃ r, Node.insertSplit B ((pre ++ c :: post).map fun c => c.toList.length) (pre ++ c :: post)
        pre.length c' node = some r ∧
      InsOk B (h+1) (pre ++ c :: post).length
        ((pre ++ c' :: node :: post).flatMap Node.toList) r := by
  have hall : ∀ d ∈ pre ++ c' :: node :: post, Shape B h d ∧ B / 2 ≤ d.width := by
    intro d hd
    simp at hd
    rcases hd with hd | rfl | rfl | hd
    · exact h3 d (by simp [hd])
    · exact ⟨hc', wc'⟩
    · exact ⟨hn, wn⟩
    · exact h3 d (by simp [hd])
  have hset : setIdx ((pre ++ c :: post).map fun c => c.toList.length) pre.length c'.subtreeSize
      = some ((pre ++ c' :: post).map fun c => c.toList.length) := by
    simp [setIdx, hc'.subtreeSize]
  have hset2 : setIdx (pre ++ c :: post) pre.length c' = some (pre ++ c' :: post) := by
    simp [setIdx]
  unfold Node.insertSplit
  rw [hset, hset2]
  simp only [Option.bind_eq_bind, Option.bind_some, Option.pure_def]
  have hlen : (pre ++ c' :: post).length = (pre ++ c :: post).length := by simp
  have hins : (pre ++ c' :: post).insertIdx (pre.length + 1) node = pre ++ c' :: node :: post :=
    insertIdx_after _ _ _ _
  generalize hL : pre ++ c' :: post = L at *
  have hpl : pre.length + 1 ≤ L.length := by rw [← hL]; simp
  have hinsm : (L.map fun c => c.toList.length).insertIdx (pre.length + 1) node.subtreeSize
      = (pre ++ c' :: node :: post).map fun c => c.toList.length := by
    rw [← hins, map_insertIdx' _ _ _ _ hpl, hn.subtreeSize]
  rw [← hins] at hall
  rw [← hins]
  by_cases hf : L.length = B
  · have key := split_insert B hB L hf (pre.length+1) (by omega) node
    have key2 := split_insert B hB (L.map fun c => c.toList.length) (by simpa using hf)
      (pre.length+1) (by omega) node.subtreeSize
    simp only [hf, if_true, avDrainFrom, Nat.div_le_self, List.length_map, Option.bind_some]
    by_cases hh : pre.length + 1 ≤ B / 2
    · rw [if_pos hh] at key key2
      have hh' : pre.length < B/2 := by omega
      simp only [hh', if_true, key.1, key2.1, Option.bind_some]
      refine ⟨_, rfl, ?_⟩
      simp only [InsOk]
      rw [← List.map_take, hn.subtreeSize, ← map_insertIdx' _ _ _ _ (by simp; omega), ← List.map_drop]
      refine ⟨shape_mk ?_ ?_ ?_, shape_mk ?_ ?_ ?_, ?_, ?_, ?_⟩
      · rw [List.length_insertIdx, List.length_take]; split <;> omega
      · rw [List.length_insertIdx, List.length_take]; split <;> omega
      · intro d hd; apply hall; rw [← key.2]; simp [hd]
      · simp; omega
      · simp; omega
      · intro d hd; apply hall; rw [← key.2]; simp [hd]
      · simp only [Node.width]; rw [List.length_insertIdx, List.length_take]; split <;> omega
      · simp only [Node.width]; simp; omega
      · simp only [Node.toList_internal]; rw [← List.flatMap_append, key.2]
    · rw [if_neg hh] at key key2
      have hh' : ¬ pre.length < B/2 := by omega
      simp only [hh', if_false, key.1, key2.1, Option.bind_some]
      refine ⟨_, rfl, ?_⟩
      simp only [InsOk]
      rw [← List.map_drop, hn.subtreeSize, ← map_insertIdx' _ _ _ _ (by simp; omega), ← List.map_take]
      refine ⟨shape_mk ?_ ?_ ?_, shape_mk ?_ ?_ ?_, ?_, ?_, ?_⟩
      · simp; omega
      · simp; omega
      · intro d hd; apply hall; rw [← key.2]; simp [hd]
      · rw [List.length_insertIdx, List.length_drop]; split <;> omega
      · rw [List.length_insertIdx, List.length_drop]; split <;> omega
      · intro d hd; apply hall; rw [← key.2]; simp [hd]
      · simp only [Node.width]; simp; omega
      · simp only [Node.width]; rw [List.length_insertIdx, List.length_drop]; split <;> omega
      · simp only [Node.toList_internal]; rw [← List.flatMap_append, key.2]
  · rw [if_neg hf]
    have hlt : L.length < B := by omega
    simp only [avInsert, List.length_map, hlt, hpl, and_self, if_true, Option.bind_some]
    refine ⟨_, rfl, ?_⟩
    simp only [InsOk]
    rw [hinsm, ← hins]
    refine ⟨shape_mk ?_ ?_ hall, by simp, ?_⟩
    · rw [length_insertIdx' _ _ _ hpl]; omega
    · rw [length_insertIdx' _ _ _ hpl]; omega
    · simp only [Node.width]; rw [length_insertIdx' _ _ _ hpl]; omega

theorem insertPos_spec {B h : Nat} (cs : List (Node α)) (hc : 1 ≤ cs.length) (o : Nat)
    (_ : ∀ c ∈ cs, Shape B h c ∧ B / 2 ≤ c.width)
    (ho : o ≤ (cs.map fun c => c.toList.length).sum) :
    ∃ pre c post o', cs = pre ++ c :: post ∧
      Node.insertPos (cs.map fun c => c.toList.length) o = some (pre.length, o') ∧
      o = (pre.map fun c => c.toList.length).sum + o' ∧ o' ≤ c.toList.length := by
  unfold Node.insertPos
  by_cases h0 : o > 0
  · obtain ⟨pre, c, post, o', rfl, e2, e3, e4⟩ := childIdx_spec (fun c : Node α => c.toList.length) cs (o-1) (by omega)
    refine ⟨pre, c, post, o'+1, rfl, ?_, by omega, by omega⟩
    rw [if_pos h0, e2]
  · rw [if_neg h0]
    cases cs with
    | nil => simp at hc
    | cons c cs => exact ⟨[], c, cs, 0, rfl, rfl, by simp; omega, by omega⟩

theorem insert_ok (B : Nat) (hB : 2 ≤ B) (h : Nat) (n : Node α) (hs : Shape B h n) (o : Nat)
    (ho : o ≤ n.toList.length) (x : α) :
    ∃ r, n.insert B o x = some r ∧ InsOk B h n.width (n.toList.insertIdx o x) r := by
  induction h generalizing n o with
  | zero =>
    obtain ⟨d, rfl, h⟩ := shape_zero hs
    rw [Node.insert]
    rw [Node.toList_leaf] at ho ⊢
    exact insertLeaf_ok B hB d h o ho x
  | succ h ih =>
    obtain ⟨cs, rfl, h1, h2, h3⟩ := shape_succ hs
    rw [Node.toList_internal, length_flatMap_sum] at ho
    obtain ⟨pre, c, post, o', rfl, e2, rfl, e4⟩ := insertPos_spec cs h2 o h3 ho
    have hc := h3 c (by simp)
    obtain ⟨r, hr, hok⟩ := ih c hc.1 o' e4
    rw [insert_internal, e2]
    simp only [List.getElem?_append_right (Nat.le_refl _), Nat.sub_self, List.getElem?_cons_zero]
    rw [hr]
    have hlist : (Node.internal ((pre ++ c :: post).map fun c => c.toList.length)
          (pre ++ c :: post)).toList.insertIdx ((pre.map fun c => c.toList.length).sum + o') x
        = pre.flatMap Node.toList ++ (c.toList.insertIdx o' x ++ post.flatMap Node.toList) := by
      rw [Node.toList_internal, List.flatMap_append, List.flatMap_cons, ← length_flatMap_sum,
        insertIdx_mid _ _ _ _ _ e4]
    rw [hlist]
    obtain ⟨c', m⟩ := r
    cases m with
    | none =>
      simp only [InsOk] at hok
      have : ((pre ++ c :: post).map fun c => c.toList.length)[pre.length]? = some c.toList.length := by
        simp
      simp only [this]
      refine ⟨_, rfl, ?_⟩
      have e : ((pre ++ c :: post).map fun c => c.toList.length).set pre.length (c.toList.length + 1)
          = (pre ++ c' :: post).map fun c => c.toList.length := by
        simp only [List.map_append, List.map_cons]
        rw [← List.length_map (as := pre) (fun c => c.toList.length), set_mid, hok.2.1,
          length_insertIdx' _ _ _ e4]
      rw [e, set_mid]
      simp only [InsOk]
      refine ⟨shape_mk (by simpa using h1) (by simpa using h2) ?_, ?_, by simp [Node.width]⟩
      · intro d hd
        simp at hd
        rcases hd with hd | rfl | hd
        · exact h3 d (by simp [hd])
        · exact ⟨hok.1, Nat.le_trans hc.2 hok.2.2⟩
        · exact h3 d (by simp [hd])
      · simp [hok.2.1]
    | some m =>
      simp only [InsOk] at hok
      obtain ⟨k1, k2, k3, k4, k5⟩ := hok
      obtain ⟨r, hr, hok⟩ := insertSplit_ok B h hB pre post c c' m h1 h3 k1 k2 k3 k4
      refine ⟨r, hr, ?_⟩
      have : (pre ++ c' :: m :: post).flatMap Node.toList
        = pre.flatMap Node.toList ++ (c.toList.insertIdx o' x ++ post.flatMap Node.toList) := by
        simp [← k5]
      rw [this] at hok
      exact hok

/-- out-of-bounds insertion panics -/
theorem insert_oob (B h : Nat) (n : Node α) (hs : Shape B h n) (o : Nat)
    (ho : n.toList.length < o) (x : α) : n.insert B o x = none := by
  cases h with
  | zero =>
    obtain ⟨d, rfl, h⟩ := shape_zero hs
    simp at ho
    rw [Node.insert]
    unfold Node.insertLeaf
    split
    · rename_i hf
      simp only [avDrainFrom, hf, Nat.div_le_self, if_true, Option.bind_eq_bind, Option.bind_some]
      have h1 : ¬ o ≤ B / 2 := by omega
      simp only [h1, if_false]
      have : avInsert B (d.drop (B/2)) (o - B/2) x = none := by
        rw [avInsert, if_neg]; simp; omega
      simp [this]
    · have : avInsert B d o x = none := by rw [avInsert, if_neg]; omega
      simp [this]
  | succ h =>
    obtain ⟨cs, rfl, h1, h2, h3⟩ := shape_succ hs
    rw [Node.toList_internal, length_flatMap_sum] at ho
    rw [insert_internal]
    have : Node.insertPos (cs.map fun c => c.toList.length) o = none := by
      unfold Node.insertPos
      rw [if_pos (by omega), childIdx_none _ _ (by omega)]
    rw [this]

end Verif.TreeVec
