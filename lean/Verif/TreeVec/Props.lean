import Verif.TreeVec.LemmasIter

/-!
# Properties C01–C06: the sweep-line sequence container behaves like a list

Everything is stated through `toList` (the represented sequence) and core `List` operations.
-/

namespace Verif.TreeVec

variable {α : Type}

/-! ## Reachable containers -/

/-- The mutating operations of the public API. -/
inductive Op (α : Type) where
  | insert (i : Nat) (x : α)
  | remove (i : Nat)
  /-- `if let Some(r) = t.get_mut(i) { *r = x }` -/
  | write (i : Nat) (x : α)

/-- Result of one call: the container afterwards and the removed element, or `none` for a panic. -/
def TreeVec.step (B : Nat) (t : TreeVec α) : Op α → Option (TreeVec α × Option α)
  | .insert i x => (t.insert B i x).map fun t' => (t', none)
  | .remove i => (t.remove B i).map fun p => (p.2, some p.1)
  | .write i x => (t.setAt i x).map fun r => (r.getD t, none)

/-- A history of calls with all returned values; `none` if some call panics. -/
def TreeVec.run (B : Nat) (t : TreeVec α) : List (Op α) → Option (TreeVec α × List (Option α))
  | [] => some (t, [])
  | op :: ops =>
    match t.step B op with
    | none => none
    | some (t', out) => (TreeVec.run B t' ops).map fun p => (p.1, out :: p.2)

/-- The specification: a plain list. -/
def specStep (l : List α) : Op α → Option (List α × Option α)
  | .insert i x => if i ≤ l.length then some (l.insertIdx i x, none) else none
  | .remove i => if h : i < l.length then some (l.eraseIdx i, some l[i]) else none
  | .write i x => some (l.set i x, none)

/-- The specification of a history. -/
def specRun (l : List α) : List (Op α) → Option (List α × List (Option α))
  | [] => some (l, [])
  | op :: ops =>
    match specStep l op with
    | none => none
    | some (l', out) => (specRun l' ops).map fun p => (p.1, out :: p.2)

/-- Containers reachable from `TreeVec::new()` by any history that did not panic. -/
def Reachable (B : Nat) (t : TreeVec α) : Prop :=
  ∃ ops outs, TreeVec.run B (TreeVec.new) ops = some (t, outs)

/-! ## Single-step facts for containers in good shape -/

theorem insert_good (B : Nat) (hB : 4 ≤ B) (t : TreeVec α) (ht : Good B t) (i : Nat) (x : α)
    (hi : i ≤ t.toList.length) :
    ∃ t', t.insert B i x = some t' ∧ Good B t' ∧ t'.toList = t.toList.insertIdx i x := by
  obtain ⟨h, hs, hw⟩ := ht
  obtain ⟨⟨n, m⟩, e1, e2⟩ := insert_ok B (by omega) h t.root hs i hi x
  cases m with
  | none =>
    simp only [InsOk] at e2
    refine ⟨⟨n⟩, by simp [TreeVec.insert, e1], ⟨h, e2.1, fun h0 => ?_⟩, e2.2.1⟩
    exact Nat.le_trans (hw h0) e2.2.2
  | some m =>
    simp only [InsOk] at e2
    obtain ⟨k1, k2, k3, k4, k5⟩ := e2
    refine ⟨⟨.internal [n.subtreeSize, m.subtreeSize] [n, m]⟩, ?_, ⟨h+1, ?_, ?_⟩, ?_⟩
    · simp only [TreeVec.insert, e1, avInsert, List.length_nil, Nat.le_refl, and_true]
      rw [if_pos (by omega)]
      simp only [List.insertIdx_zero, List.length_cons, List.length_nil, Nat.zero_add,
        Nat.le_refl, and_true]
      rw [if_pos (by omega)]
      simp
    · rw [k1.subtreeSize, k2.subtreeSize]
      have := shape_mk (B := B) (h := h) (cs := [n, m]) (by simp; omega) (by simp) (by
        intro c hc; simp at hc; rcases hc with rfl | rfl
        · exact ⟨k1, k3⟩
        · exact ⟨k2, k4⟩)
      simpa using this
    · intro _; simp [Node.width]
    · simpa [TreeVec.toList] using k5

theorem insert_panics (B : Nat) (t : TreeVec α) (ht : Good B t) (i : Nat) (x : α)
    (hi : t.toList.length < i) : t.insert B i x = none := by
  obtain ⟨h, hs, hw⟩ := ht
  simp [TreeVec.insert, insert_oob B h t.root hs i hi x]

theorem remove_good (B : Nat) (hB : 4 ≤ B) (t : TreeVec α) (ht : Good B t) (i : Nat)
    (hi : i < t.toList.length) :
    ∃ t', t.remove B i = some (t.toList[i], t') ∧ Good B t' ∧ t'.toList = t.toList.eraseIdx i := by
  obtain ⟨h, hs, hw⟩ := ht
  obtain ⟨x, n', u, e1, e2, e3, e4, e5, e6, e7⟩ := remove_ok B hB h t.root hs hw i hi
  have hx : x = t.toList[i] := by
    rw [TreeVec.toList] at hi
    rw [List.getElem?_eq_getElem hi] at e2
    simp at e2; exact e2.symm
  subst hx
  cases h with
  | zero =>
    obtain ⟨d, rfl, hd⟩ := shape_zero e3
    exact ⟨⟨.leaf d⟩, by simp [TreeVec.remove, e1], ⟨0, e3, by simp⟩, e4⟩
  | succ h =>
    obtain ⟨cs, rfl, h1, h2, h3⟩ := shape_succ e3
    match cs, h2 with
    | [c], _ =>
      refine ⟨⟨c⟩, by simp [TreeVec.remove, e1], ⟨h, (h3 c (by simp)).1, ?_⟩, ?_⟩
      · intro _; have := (h3 c (by simp)).2; simp; omega
      · simpa [TreeVec.toList] using e4
    | c :: d :: cs, _ =>
      refine ⟨⟨.internal _ (c :: d :: cs)⟩, by simp [TreeVec.remove, e1], ⟨h+1, e3, ?_⟩, e4⟩
      intro _; simp [Node.width]

theorem remove_panics (B : Nat) (t : TreeVec α) (ht : Good B t) (i : Nat)
    (hi : t.toList.length ≤ i) : t.remove B i = none := by
  obtain ⟨h, hs, hw⟩ := ht
  simp [TreeVec.remove, remove_oob B h t.root hs i hi]

theorem setAt_good (B : Nat) (t : TreeVec α) (ht : Good B t) (i : Nat) (x : α) :
    if i < t.toList.length then
      ∃ t', t.setAt i x = some (some t') ∧ Good B t' ∧ t'.toList = t.toList.set i x
    else t.setAt i x = some none := by
  obtain ⟨h, hs, hw⟩ := ht
  have := hs.setAt i x
  rw [TreeVec.toList]
  split
  · rename_i hi
    rw [if_pos hi] at this
    obtain ⟨n', e1, e2, e3, e4⟩ := this
    exact ⟨⟨n'⟩, by simp [TreeVec.setAt, e1], ⟨h, e2, fun h0 => by rw [e3]; exact hw h0⟩, e4⟩
  · rename_i hi
    rw [if_neg hi] at this
    simp [TreeVec.setAt, this]

theorem new_good (B : Nat) : Good B (TreeVec.new (α := α)) :=
  ⟨0, by simp [TreeVec.new, Shape], by simp⟩

/-- One step refines the list specification. -/
theorem step_refines (B : Nat) (hB : 4 ≤ B) (t : TreeVec α) (ht : Good B t) (op : Op α) :
    (specStep t.toList op = none ∧ t.step B op = none) ∨
    (∃ l' out t', specStep t.toList op = some (l', out) ∧ t.step B op = some (t', out) ∧
      Good B t' ∧ t'.toList = l') := by
  cases op with
  | insert i x =>
    by_cases hi : i ≤ t.toList.length
    · right
      obtain ⟨t', e1, e2, e3⟩ := insert_good B hB t ht i x hi
      exact ⟨_, none, t', by simp [specStep, hi], by simp [TreeVec.step, e1], e2, e3⟩
    · left
      exact ⟨by simp [specStep, hi], by simp [TreeVec.step, insert_panics B t ht i x (by omega)]⟩
  | remove i =>
    by_cases hi : i < t.toList.length
    · right
      obtain ⟨t', e1, e2, e3⟩ := remove_good B hB t ht i hi
      exact ⟨_, some t.toList[i], t', by simp [specStep, hi], by simp [TreeVec.step, e1], e2, e3⟩
    · left
      exact ⟨by simp [specStep, hi], by simp [TreeVec.step, remove_panics B t ht i (by omega)]⟩
  | write i x =>
    right
    have := setAt_good B t ht i x
    split at this
    · obtain ⟨t', e1, e2, e3⟩ := this
      exact ⟨_, _, t', rfl, by simp [TreeVec.step, e1], e2, e3⟩
    · rename_i hi
      refine ⟨_, _, t, rfl, by simp [TreeVec.step, this], ht, ?_⟩
      rw [List.set_eq_of_length_le (by omega)]

theorem run_refines (B : Nat) (hB : 4 ≤ B) (ops : List (Op α)) (t : TreeVec α) (ht : Good B t) :
    (specRun t.toList ops = none ∧ t.run B ops = none) ∨
    (∃ l' outs t', specRun t.toList ops = some (l', outs) ∧ t.run B ops = some (t', outs) ∧
      Good B t' ∧ t'.toList = l') := by
  induction ops generalizing t with
  | nil => right; exact ⟨_, _, t, rfl, rfl, ht, rfl⟩
  | cons op ops ih =>
    rcases step_refines B hB t ht op with ⟨e1, e2⟩ | ⟨l', out, t', e1, e2, e3, rfl⟩
    · left; exact ⟨by simp [specRun, e1], by simp [TreeVec.run, e2]⟩
    · rcases ih t' e3 with ⟨f1, f2⟩ | ⟨l'', outs, t'', f1, f2, f3, f4⟩
      · left; exact ⟨by simp [specRun, e1, f1], by simp [TreeVec.run, e2, f2]⟩
      · right
        exact ⟨l'', out :: outs, t'', by simp [specRun, e1, f1], by simp [TreeVec.run, e2, f2], f3,
          f4⟩

/-! ## The properties -/

/-- **C04.** After any history of calls from the empty container (any capacity `B ≥ 4`), the
container has the documented shape: uniform height, exact stored counts, at most `B` entries per node
and at least `B/2` in every node but the root (two children at least for an internal root). -/
theorem C04_reachable_good (B : Nat) (hB : 4 ≤ B) (t : TreeVec α) (ht : Reachable B t) :
    Good B t := by
  obtain ⟨ops, outs, hr⟩ := ht
  rcases run_refines B hB ops TreeVec.new (new_good B) with ⟨_, e⟩ | ⟨l', o, t', _, e2, e3, _⟩
  · rw [hr] at e; simp at e
  · rw [hr] at e2; simp at e2; rw [e2.1]; exact e3

/-- **C04 (histories).** Any history of inserts, removes and writes on a new container panics exactly
when the same history on a plain list goes out of bounds; otherwise it returns the same values and
ends with the same sequence. In particular no internal `unwrap`/index/assert of the tree code can
fail. -/
theorem C04_history_refines_list (B : Nat) (hB : 4 ≤ B) (ops : List (Op α)) :
    (TreeVec.run B TreeVec.new ops).map (fun p => (p.1.toList, p.2)) = specRun [] ops := by
  have := run_refines B hB ops (TreeVec.new (α := α)) (new_good B)
  have e : (TreeVec.new (α := α)).toList = [] := by simp [TreeVec.new, TreeVec.toList]
  rw [e] at this
  rcases this with ⟨e1, e2⟩ | ⟨l', o, t', e1, e2, e3, e4⟩
  · simp [e1, e2]
  · simp [e1, e2, e4]

/-- **C01.** `insert` on a reachable container: list insertion when in bounds, panic otherwise. -/
theorem C01_insert (B : Nat) (hB : 4 ≤ B) (t : TreeVec α) (ht : Reachable B t) (i : Nat) (x : α) :
    (t.insert B i x).map TreeVec.toList =
      if i ≤ t.toList.length then some (t.toList.insertIdx i x) else none := by
  have hg := C04_reachable_good B hB t ht
  split
  · rename_i hi
    obtain ⟨t', e1, _, e3⟩ := insert_good B hB t hg i x hi
    simp [e1, e3]
  · rename_i hi
    simp [insert_panics B t hg i x (by omega)]

/-- **C02.** `remove` on a reachable container: returns the element and leaves the list without it,
panic when out of bounds. -/
theorem C02_remove (B : Nat) (hB : 4 ≤ B) (t : TreeVec α) (ht : Reachable B t) (i : Nat) :
    (t.remove B i).map (fun p => (p.1, p.2.toList)) =
      if h : i < t.toList.length then some (t.toList[i], t.toList.eraseIdx i) else none := by
  have hg := C04_reachable_good B hB t ht
  split
  · rename_i hi
    obtain ⟨t', e1, _, e3⟩ := remove_good B hB t hg i hi
    simp [e1, e3]
  · rename_i hi
    simp [remove_panics B t hg i (by omega)]

/-- **C03 (len).** -/
theorem C03_len (B : Nat) (hB : 4 ≤ B) (t : TreeVec α) (ht : Reachable B t) :
    t.len = t.toList.length := by
  obtain ⟨h, hs, _⟩ := C04_reachable_good B hB t ht
  exact hs.subtreeSize

/-- **C03 (is_empty).** -/
theorem C03_isEmpty (B : Nat) (hB : 4 ≤ B) (t : TreeVec α) (ht : Reachable B t) :
    t.isEmpty = true ↔ t.toList = [] := by
  obtain ⟨h, hs, hw⟩ := C04_reachable_good B hB t ht
  cases h with
  | zero =>
    obtain ⟨d, e, hd⟩ := shape_zero hs
    simp [TreeVec.isEmpty, TreeVec.toList, e]
  | succ h =>
    obtain ⟨cs, e, h1, h2, h3⟩ := shape_succ hs
    simp only [TreeVec.isEmpty, TreeVec.toList, e, Node.toList_internal]
    cases cs with
    | nil => simp at h2
    | cons c cs =>
      have := h3 c (by simp)
      have := this.1.pos (by omega) this.2
      simp
      intro h0; simp [h0] at this

/-- **C03 (get).** `get(i)` never panics and is the `i`-th element or `None`. -/
theorem C03_get (B : Nat) (hB : 4 ≤ B) (t : TreeVec α) (ht : Reachable B t) (i : Nat) :
    t.get i = some t.toList[i]? := by
  obtain ⟨h, hs, _⟩ := C04_reachable_good B hB t ht
  exact hs.get i

/-- **C03 (get_mut).** `get_mut(i)` gives a reference iff `i < len`; writing through it changes
position `i` only. -/
theorem C03_getMut (B : Nat) (hB : 4 ≤ B) (t : TreeVec α) (ht : Reachable B t) (i : Nat) (x : α) :
    (t.setAt i x).map (fun r => r.map TreeVec.toList) =
      some (if i < t.toList.length then some (t.toList.set i x) else none) := by
  have := setAt_good B t (C04_reachable_good B hB t ht) i x
  split
  · rename_i hi
    rw [if_pos hi] at this
    obtain ⟨t', e1, _, e3⟩ := this
    simp [e1, e3]
  · rename_i hi
    rw [if_neg hi] at this
    simp [this]

/-- **C03 (iter).** Running the iterator to exhaustion never panics and yields the sequence, in
order; `len + 1` calls of `next` suffice. -/
theorem C03_iter (B : Nat) (hB : 4 ≤ B) (t : TreeVec α) (ht : Reachable B t) (fuel : Nat)
    (hf : t.toList.length < fuel) :
    (t.iter.bind fun it => it.collect fuel) = some t.toList := by
  obtain ⟨h, hs, hw⟩ := C04_reachable_good B hB t ht
  have hlen := C03_len B hB t ht
  cases h with
  | zero =>
    obtain ⟨d, e, hd⟩ := shape_zero hs
    simp only [TreeVec.iter, TreeVec.toList, e, Node.toList_leaf, Option.bind_some] at hf ⊢
    exact collect_simple_ok d fuel hf
  | succ h =>
    obtain ⟨cs, e, h1, h2, h3⟩ := shape_succ hs
    obtain ⟨st, lf, d1, d2, d3, _⟩ := descend_ok B (h+1) t.root hs [] (by intro cs hcs; simp at hcs)
    have d4 : lf ++ stackList st = t.toList := by rw [d3]; simp [stackList, TreeVec.toList]
    rw [e] at d1
    have := collect_tree_ok B (by omega) ⟨st, lf, t.len⟩ d2 fuel (by
      simp only [d4]; rw [hlen]; simpa using hf)
    simp only [d4] at this
    rw [hlen] at this
    simp only [TreeVec.iter, e, d1, Option.bind_some]
    rw [hlen, this]; simp

/-- **C03 (range).** `range(a..b)` panics iff not `a ≤ b ≤ len`; otherwise it yields exactly the
slice. -/
theorem C03_range (B : Nat) (hB : 4 ≤ B) (t : TreeVec α) (ht : Reachable B t) (a b fuel : Nat)
    (hf : t.toList.length < fuel) :
    ((t.range a b).bind fun it => it.collect fuel) =
      if a ≤ b ∧ b ≤ t.toList.length then some ((t.toList.take b).drop a) else none := by
  obtain ⟨h, hs, hw⟩ := C04_reachable_good B hB t ht
  have hlen := C03_len B hB t ht
  cases h with
  | zero =>
    obtain ⟨d, e, hd⟩ := shape_zero hs
    simp only [TreeVec.range, TreeVec.toList, e, Node.toList_leaf] at hf ⊢
    split
    · rw [Option.bind_some]
      exact collect_simple_ok _ fuel (by simp; omega)
    · rfl
  | succ h =>
    obtain ⟨cs, e, h1, h2, h3⟩ := shape_succ hs
    simp only [TreeVec.range, e]
    rw [hlen]
    by_cases hb : b > t.toList.length
    · rw [if_pos hb, if_neg (by omega)]; rfl
    · rw [if_neg hb]
      by_cases ha : a > b
      · rw [if_pos ha, if_neg (by omega)]; rfl
      · rw [if_neg ha, if_pos (by omega)]
        rw [← e]
        have key : ∃ st lf, descendTo [] [] t.root a = some (st, lf) ∧ StackOk B st ∧
            lf ++ stackList st = t.toList.drop a := by
          by_cases hlt : a < t.toList.length
          · obtain ⟨st, lf, d1, d2, d3⟩ := descendTo_lt B (h+1) t.root hs [] (by intro cs hcs; simp at hcs)
              [] a hlt
            exact ⟨st, lf, d1, d2, by rw [d3]; simp [stackList, TreeVec.toList]⟩
          · refine ⟨[], [], ?_, by intro cs hcs; simp at hcs, ?_⟩
            · rw [e, descendTo_internal, childIdx_none]
              rw [← length_flatMap_sum, ← Node.toList_internal _ cs, ← e]
              simpa [TreeVec.toList] using hlt
            · rw [List.drop_of_length_le (by omega)]; simp [stackList]
        obtain ⟨st, lf, d1, d2, d3⟩ := key
        rw [d1]
        have := collect_tree_ok B (by omega) ⟨st, lf, b - a⟩ d2 fuel (by
          simp only [d3]; simp; omega)
        simp only [d3] at this
        simp only [Option.bind_some, this, List.drop_take]

/-- **C05.** A container of height `h ≥ 1` holds at least `2 * (B/2)^h` elements. -/
theorem C05_depth (B : Nat) (hB : 4 ≤ B) (t : TreeVec α) (ht : Reachable B t) :
    ∃ h, GoodAt B h t ∧ (1 ≤ h → 2 * (B/2)^h ≤ t.toList.length) := by
  obtain ⟨h, hs, hw⟩ := C04_reachable_good B hB t ht
  refine ⟨h, ⟨hs, hw⟩, fun h1 => ?_⟩
  have := size_lower B h t.root hs
  exact Nat.le_trans (Nat.mul_le_mul_right _ (hw (by omega))) this

/-- **C06.** For *every* predicate, `partition_point` never panics and returns a `k ≤ len` with the
predicate true at `k - 1` (unless `k = 0`) and false at `k` (unless `k = len`). -/
theorem C06_partition_point (B : Nat) (hB : 4 ≤ B) (t : TreeVec α) (ht : Reachable B t)
    (pred : α → Bool) :
    ∃ k, t.partitionPoint pred = some k ∧ k ≤ t.toList.length ∧
      (∀ (_ : 0 < k) (hk : k - 1 < t.toList.length), pred t.toList[k-1] = true) ∧
      (∀ (hk : k < t.toList.length), pred t.toList[k] = false) := by
  obtain ⟨h, hs, hw⟩ := C04_reachable_good B hB t ht
  obtain ⟨k, e1, e2, e3, e4⟩ := partitionPoint_ok B h t.root hs (by omega) pred
  refine ⟨k, e1, e2, ?_, ?_⟩
  · intro h0 hk
    obtain ⟨x, hx, hp⟩ := e3 (k-1) (by omega)
    change t.toList[k-1]? = some x at hx
    rw [List.getElem?_eq_getElem hk] at hx
    simp at hx; rw [hx]; exact hp
  · intro hk
    exact e4 _ (List.getElem?_eq_getElem hk)

/-- **C06 (sorted case).** If the predicate is true on a first part and false afterwards, the
result is the length of the first part. -/
theorem C06_partition_point_sorted (B : Nat) (hB : 4 ≤ B) (t : TreeVec α) (ht : Reachable B t)
    (pred : α → Bool) (l r : List α) (he : t.toList = l ++ r) (hl : ∀ x ∈ l, pred x = true)
    (hr : ∀ x ∈ r, pred x = false) : t.partitionPoint pred = some l.length := by
  obtain ⟨k, e1, e2, e3, e4⟩ := C06_partition_point B hB t ht pred
  rw [e1]; congr 1
  rcases Nat.lt_trichotomy k l.length with hk | hk | hk
  · have h1 : k < t.toList.length := by rw [he]; simp; omega
    have := e4 h1
    have h2 : t.toList[k] = l[k] := by
      simp only [he]; rw [List.getElem_append_left hk]
    rw [h2, hl _ (List.getElem_mem hk)] at this
    simp at this
  · exact hk
  · have h1 : k - 1 < t.toList.length := by omega
    have := e3 (by omega) h1
    have h3 : k - 1 - l.length < r.length := by rw [he] at h1; simp at h1; omega
    have h2 : t.toList[k-1] = r[k - 1 - l.length] := by
      simp only [he]; rw [List.getElem_append_right (by omega)]
    rw [h2, hr _ (List.getElem_mem h3)] at this
    simp at this

/-- **C01/C03 (collect).** Collecting an iterator into a container gives its sequence. -/
theorem C03_from_iter (B : Nat) (hB : 4 ≤ B) (l : List α) :
    (TreeVec.fromIter B l).map TreeVec.toList = some l := by
  have key : ∀ (r l : List α) (t : TreeVec α), Good B t → t.toList = l →
      ∃ t', TreeVec.fromIterAux B t l.length r = some t' ∧ t'.toList = l ++ r := by
    intro r
    induction r with
    | nil => intro l t _ hl; exact ⟨t, rfl, by simp [hl]⟩
    | cons x r ih =>
      intro l t ht hl
      obtain ⟨t', e1, e2, e3⟩ := insert_good B hB t ht l.length x (by rw [hl]; omega)
      have e4 : t'.toList = l ++ [x] := by
        rw [e3, hl, insertIdx_eq _ _ _ (Nat.le_refl _)]; simp
      obtain ⟨t'', f1, f2⟩ := ih (l ++ [x]) t' e2 e4
      refine ⟨t'', ?_, by simpa using f2⟩
      simp only [TreeVec.fromIterAux, e1]
      simpa using f1
  obtain ⟨t', e1, e2⟩ := key l [] TreeVec.new (new_good B) (by simp [TreeVec.new, TreeVec.toList])
  simp only [TreeVec.fromIter]
  simp at e1 e2
  rw [e1]; simp [e2]

/-! ## Non-vacuity -/

/-- A 40-element history with capacity 4 (three levels), followed by removals that merge nodes. -/
def demoOps : List (Op Nat) :=
  (List.range 40).map (fun i => Op.insert (i / 2) i) ++ (List.range 20).map (fun _ => Op.remove 3)

theorem reachable_of_spec {B : Nat} (hB : 4 ≤ B) {ops : List (Op α)} {l : List α}
    (h : (specRun [] ops).map Prod.fst = some l) : ∃ t, Reachable B t ∧ t.toList = l := by
  have := C04_history_refines_list B hB ops
  rw [← this] at h
  simp at h
  obtain ⟨t, ht, rfl⟩ := h
  obtain ⟨outs, ho⟩ := ht
  exact ⟨t, ⟨ops, outs, ho⟩, rfl⟩

/-- The hypotheses of C01–C06 are met by a 20-element container built by 40 insertions and 20
removals (with `B = 4`, so that nodes split, merge and rebalance). -/
example : ∃ t : TreeVec Nat, Reachable 4 t ∧ t.toList.length = 20 := by
  obtain ⟨t, h1, h2⟩ := reachable_of_spec (B := 4) (by decide) (ops := demoOps)
    (l := ((specRun [] demoOps).map Prod.fst).getD []) (by decide)
  exact ⟨t, h1, by rw [h2]; decide⟩

/-- Out-of-range calls really panic in the model. -/
example : (TreeVec.new (α := Nat)).insert 4 1 7 = none ∧ (TreeVec.new (α := Nat)).remove 4 0 = none := by
  refine ⟨insert_panics 4 _ (new_good 4) 1 7 (by simp [TreeVec.new, TreeVec.toList]), remove_panics 4 _ (new_good 4) 0 (by simp [TreeVec.new, TreeVec.toList])⟩

/-- The hypotheses of the sorted case are satisfiable. -/
example : ∃ (t : TreeVec Nat), Reachable 4 t ∧ ∃ l r, t.toList = l ++ r ∧ l ≠ [] ∧ r ≠ [] ∧
    (∀ x ∈ l, decide (x < 2) = true) ∧ (∀ x ∈ r, decide (x < 2) = false) := by
  have hr : Reachable 4 (⟨.leaf [0, 1, 2]⟩ : TreeVec Nat) :=
    ⟨[.insert 0 0, .insert 1 1, .insert 2 2], [none, none, none], by
      simp [TreeVec.run, TreeVec.step, TreeVec.insert, TreeVec.new, Node.insert, Node.insertLeaf,
        avInsert]⟩
  exact ⟨_, hr, [0, 1], [2], by simp [TreeVec.toList]⟩

end Verif.TreeVec
