/-!
# Model of `src/treevec.rs`

`TreeVec<T, B>`: a B-tree used as a sequence container.  `B` is a parameter.
A Rust panic is modelled by `none`.  `ArrayVec<_, B>` is a `List` whose operations
panic when the capacity `B` would be exceeded.
-/

namespace Verif.TreeVec

set_option linter.unusedVariables false



/-- treevec.rs:35-53 (`enum Node`). `Box` is dropped. -/
inductive Node (α : Type) where
  | leaf (data : List α)
  | internal (size : List Nat) (children : List (Node α))

/-- `arrayvec::ArrayVec::insert`: panics if full or if the index is past the end. -/
def avInsert {β : Type} (B : Nat) (l : List β) (i : Nat) (x : β) : Option (List β) :=
  if l.length < B ∧ i ≤ l.length then some (l.insertIdx i x) else none

/-- `arrayvec::ArrayVec::remove`: panics if the index is out of bounds; returns the element
and the remaining array. -/
def avRemove {β : Type} (l : List β) (i : Nat) : Option (β × List β) :=
  match l[i]? with
  | some x => some (x, l.eraseIdx i)
  | none => none

/-- `l.extend(r)` for an `ArrayVec` of capacity `B`: panics if the capacity is exceeded. -/
def avExtend {β : Type} (B : Nat) (l r : List β) : Option (List β) :=
  if l.length + r.length ≤ B then some (l ++ r) else none

/-- `data.drain(k..).collect()` : returns (what is kept, what was drained); panics if `k > len`. -/
def avDrainFrom {β : Type} (l : List β) (k : Nat) : Option (List β × List β) :=
  if k ≤ l.length then some (l.take k, l.drop k) else none

/-- `size[i] = x`: panics if out of bounds. -/
def setIdx {β : Type} (l : List β) (i : Nat) (x : β) : Option (List β) :=
  if i < l.length then some (l.set i x) else none

/-- treevec.rs:94-102 (`child_idx`). -/
def childIdx : List Nat → Nat → Option (Nat × Nat)
  | [], _ => none
  | s :: ss, o =>
    if s > o then some (0, o)
    else (childIdx ss (o - s)).map fun p => (p.1 + 1, p.2)

namespace Node

variable {α : Type}

/-- treevec.rs:106-111 (`Node::subtree_size`). -/
def subtreeSize : Node α → Nat
  | leaf d => d.length
  | internal size _ => size.sum

/-- treevec.rs:114-122 (`Node::get`). The outer `Option` models the panic of `children[idx]`. -/
def get (n : Node α) (offset : Nat) : Option (Option α) :=
  match n with
  | leaf d => some d[offset]?
  | internal size children =>
    match childIdx size offset with
    | none => some none
    | some (idx, o) =>
      match h : children[idx]? with
      | none => none
      | some c => c.get o
termination_by n
decreasing_by
  have := List.sizeOf_lt_of_mem (List.mem_of_getElem? h)
  simp; omega

/-- treevec.rs:125-133 (`Node::get_mut`), modelled as "write `x` through the reference":
the outer `Option` is the panic, the inner one is `None` (no element at that offset). -/
def setAt (n : Node α) (offset : Nat) (x : α) : Option (Option (Node α)) :=
  match n with
  | leaf d => some (if offset < d.length then some (leaf (d.set offset x)) else none)
  | internal size children =>
    match childIdx size offset with
    | none => some none
    | some (idx, o) =>
      match h : children[idx]? with
      | none => none
      | some c =>
        match c.setAt o x with
        | none => none
        | some none => some none
        | some (some c') => some (some (internal size (children.set idx c')))
termination_by n
decreasing_by
  have := List.sizeOf_lt_of_mem (List.mem_of_getElem? h)
  simp; omega

/-- treevec.rs:138-143 (`Node::first`). -/
def first : Node α → Option α
  | leaf d => d.head?
  | internal _ [] => none
  | internal _ (c :: _) => c.first

/-- treevec.rs:168-174: which child an insertion goes to. -/
def insertPos (size : List Nat) (offset : Nat) : Option (Nat × Nat) :=
  if offset > 0 then
    match childIdx size (offset - 1) with
    | none => none
    | some (idx, o) => some (idx, o + 1)
  else some (0, 0)

/-- treevec.rs:180-204: after child `idx` became `c'` and split off `node`. The result is the
new node and the possible new right sibling. -/
def insertSplit (B : Nat) (size : List Nat) (children : List (Node α)) (idx : Nat)
    (c' node : Node α) : Option (Node α × Option (Node α)) := do
  let size ← setIdx size idx c'.subtreeSize
  let children ← setIdx children idx c'
  if children.length = B then
    let (children, children2) ← avDrainFrom children (B / 2)
    let (size, size2) ← avDrainFrom size (B / 2)
    if idx < B / 2 then
      let size ← avInsert B size (idx + 1) node.subtreeSize
      let children ← avInsert B children (idx + 1) node
      pure (internal size children, some (internal size2 children2))
    else
      let size2 ← avInsert B size2 (idx + 1 - B / 2) node.subtreeSize
      let children2 ← avInsert B children2 (idx + 1 - B / 2) node
      pure (internal size children, some (internal size2 children2))
  else
    let size ← avInsert B size (idx + 1) node.subtreeSize
    let children ← avInsert B children (idx + 1) node
    pure (internal size children, none)

/-- treevec.rs:154-165: insertion into a leaf. -/
def insertLeaf (B : Nat) (data : List α) (offset : Nat) (x : α) :
    Option (Node α × Option (Node α)) := do
  if data.length = B then
    let (data, second) ← avDrainFrom data (B / 2)
    if offset ≤ B / 2 then
      let data ← avInsert B data offset x
      pure (leaf data, some (leaf second))
    else
      let second ← avInsert B second (offset - B / 2) x
      pure (leaf data, some (leaf second))
  else
    let data ← avInsert B data offset x
    pure (leaf data, none)

/-- treevec.rs:151-208 (`Node::insert`). `(n', none)` is `InsertResult::Done`, `(n', some m)` is
`InsertResult::Split(m)`; `n'` is the modified `self`. -/
def insert (B : Nat) (n : Node α) (offset : Nat) (x : α) : Option (Node α × Option (Node α)) :=
  match n with
  | leaf data => insertLeaf B data offset x
  | internal size children =>
    match insertPos size offset with
    | none => none
    | some (idx, o) =>
      match h : children[idx]? with
      | none => none
      | some c =>
        match c.insert B o x with
        | none => none
        | some (c', none) =>
          match size[idx]? with
          | none => none
          | some s => some (internal (size.set idx (s + 1)) (children.set idx c'), none)
        | some (c', some node) => insertSplit B size children idx c' node
termination_by n
decreasing_by
  have := List.sizeOf_lt_of_mem (List.mem_of_getElem? h)
  simp; omega

/-- treevec.rs:81-88 (`enum MergeResult`) together with the two mutated siblings
(left one first). -/
inductive MergeResult (α : Type) where
  | absorbed (left right : Node α)
  | rebalanced (left right : Node α)

/-- treevec.rs:212-257 (`Node::merge_from_right`): `self` is `l`. Includes the
`debug_assert!`s. -/
def mergeFromRight (B : Nat) : Node α → Node α → Option (MergeResult α)
  | leaf l, leaf r =>
    if r.length < l.length then none
    else if l.length + r.length ≤ B then
      match avExtend B l r with
      | none => none
      | some l' => some (.absorbed (leaf l') (leaf []))
    else
      let count := (r.length - l.length) / 2
      if count = 0 then none else
      match avExtend B l (r.take count) with
      | none => none
      | some l' => some (.rebalanced (leaf l') (leaf (r.drop count)))
  | internal ls lc, internal rs rc =>
    if lc.length + rc.length ≤ B then
      match avExtend B ls rs, avExtend B lc rc with
      | some ls', some lc' => some (.absorbed (internal ls' lc') (internal [] []))
      | _, _ => none
    else
      if rc.length < lc.length then none else
      let count := (rc.length - lc.length) / 2
      if count = 0 then none else
      if rs.length < count then none else
      match avExtend B ls (rs.take count), avExtend B lc (rc.take count) with
      | some ls', some lc' =>
        some (.rebalanced (internal ls' lc') (internal (rs.drop count) (rc.drop count)))
      | _, _ => none
  | _, _ => none

/-- treevec.rs:261-305 (`Node::merge_from_left`): `self` is the right node `r`. In the
absorbing case the two arrays are swapped, so the right node ends up with everything. -/
def mergeFromLeft (B : Nat) : (left right : Node α) → Option (MergeResult α)
  | leaf l, leaf r =>
    if l.length < r.length then none
    else if l.length + r.length ≤ B then
      match avExtend B l r with
      | none => none
      | some all => some (.absorbed (leaf []) (leaf all))
    else
      match l.getLast? with
      | none => none
      | some x =>
        match avInsert B r 0 x with
        | none => none
        | some r' => some (.rebalanced (leaf l.dropLast) (leaf r'))
  | internal ls lc, internal rs rc =>
    if lc.length + rc.length ≤ B then
      match avExtend B ls rs, avExtend B lc rc with
      | some ls', some lc' => some (.absorbed (internal [] []) (internal ls' lc'))
      | _, _ => none
    else
      match lc.getLast?, ls.getLast? with
      | some c, some s =>
        match avInsert B rc 0 c, avInsert B rs 0 s with
        | some rc', some rs' =>
          some (.rebalanced (internal ls.dropLast lc.dropLast) (internal rs' rc'))
        | _, _ => none
      | _, _ => none
  | _, _ => none

/-- treevec.rs:326-391: fixing up after child `idx` (already replaced in `children`, and `size[idx]`
already decremented) became undersized.  The `Bool` is "undersized" (`RemoveResult::Undersize`). -/
def fixUndersize (B : Nat) (size : List Nat) (children : List (Node α)) (idx : Nat) :
    Option (Node α × Bool) :=
  if idx + 1 < children.length then
    match children[idx]?, children[idx + 1]? with
    | some cur, some next =>
      match mergeFromRight B cur next with
      | none => none
      | some (.absorbed cur next) => do
        let children := (children.set idx cur).set (idx + 1) next
        let size ← setIdx size idx cur.subtreeSize
        let (_, children) ← avRemove children (idx + 1)
        let (_, size) ← avRemove size (idx + 1)
        pure (internal size children, decide (children.length < B / 2))
      | some (.rebalanced cur next) => do
        let children := (children.set idx cur).set (idx + 1) next
        let size ← setIdx size idx cur.subtreeSize
        let size ← setIdx size (idx + 1) next.subtreeSize
        pure (internal size children, false)
    | _, _ => none
  else if idx = 0 then none
  else
    match children[idx - 1]?, children[idx]? with
    | some prev, some cur =>
      match mergeFromLeft B prev cur with
      | none => none
      | some (.absorbed prev cur) => do
        let children := (children.set (idx - 1) prev).set idx cur
        let size ← setIdx size idx cur.subtreeSize
        let (_, children) ← avRemove children (idx - 1)
        let (_, size) ← avRemove size (idx - 1)
        pure (internal size children, decide (children.length < B / 2))
      | some (.rebalanced prev cur) => do
        let children := (children.set (idx - 1) prev).set idx cur
        let size ← setIdx size (idx - 1) prev.subtreeSize
        let size ← setIdx size idx cur.subtreeSize
        pure (internal size children, false)
    | _, _ => none

/-- treevec.rs:311-395 (`Node::remove`): the removed element, the modified node and
whether it is `Undersize`. -/
def remove (B : Nat) (n : Node α) (offset : Nat) : Option (α × Node α × Bool) :=
  match n with
  | leaf data =>
    match avRemove data offset with
    | none => none
    | some (x, data) => some (x, leaf data, decide (data.length < B / 2))
  | internal size children =>
    match childIdx size offset with
    | none => none
    | some (idx, o) =>
      match size[idx]? with
      | none => none
      | some 0 => none
      | some (s + 1) =>
        match h : children[idx]? with
        | none => none
        | some c =>
          match c.remove B o with
          | none => none
          | some (x, c', false) => some (x, internal (size.set idx s) (children.set idx c'), false)
          | some (x, c', true) =>
            match fixUndersize B (size.set idx s) (children.set idx c') idx with
            | none => none
            | some (n', under) => some (x, n', under)
termination_by n
decreasing_by
  have := List.sizeOf_lt_of_mem (List.mem_of_getElem? h)
  simp; omega

end Node

/-- Rust's `slice::partition_point` (`binary_search_by` in core/src/slice/mod.rs, the branchless
loop used since Rust 1.82): `size` halves, `base` advances.  The predicate may panic (`none`). -/
def ppLoop {β : Type} (l : List β) (pred : β → Option Bool) (base size : Nat) : Option Nat :=
  if 1 < size then
    match l[base + size / 2]? with
    | none => none
    | some x =>
      match pred x with
      | none => none
      | some b => ppLoop l pred (if b then base + size / 2 else base) (size - size / 2)
  else some base
termination_by size
decreasing_by omega

/-- Rust's `slice::partition_point`. -/
def slicePartitionPoint {β : Type} (l : List β) (pred : β → Option Bool) : Option Nat :=
  if l.length = 0 then some 0
  else
    match ppLoop l pred 0 l.length with
    | none => none
    | some base =>
      match l[base]? with
      | none => none
      | some x =>
        match pred x with
        | none => none
        | some b => some (if b then base + 1 else base)

/-- treevec.rs:398-416 (`Node::partition_point`). -/
def Node.partitionPoint {α : Type} (n : Node α) (pred : α → Bool) : Option Nat :=
  match n with
  | .leaf data => slicePartitionPoint data (fun x => some (pred x))
  | .internal size children =>
    match slicePartitionPoint children (fun c => (c.first).map pred) with
    | none => none
    | some 0 => some 0
    | some (k + 1) =>
      match h : children[k]? with
      | none => none
      | some c =>
        match c.partitionPoint pred with
        | none => none
        | some r => if k ≤ size.length then some (r + (size.take k).sum) else none
termination_by n
decreasing_by
  have := List.sizeOf_lt_of_mem (List.mem_of_getElem? h)
  simp; omega

/-- treevec.rs:14-16 (`struct TreeVec`). -/
structure TreeVec (α : Type) where
  root : Node α

/-- treevec.rs:703-721 (`TreeIter::descend`): the stack (top first) holds, per internal node on the
path, the children not yet visited.  Returns the extended stack and the leaf. -/
def descend {α : Type} (stack : List (List (Node α))) :
    Node α → Option (List (List (Node α)) × List α)
  | .leaf d => some (stack, d)
  | .internal _ [] => none
  | .internal _ (c :: cs) => descend (cs :: stack) c

/-- treevec.rs:725-744 (`TreeIter::descend_to`), `leaf` being the current leaf iterator. -/
def descendTo {α : Type} (stack : List (List (Node α))) (lf : List α) (n : Node α)
    (offset : Nat) : Option (List (List (Node α)) × List α) :=
  match n with
  | .leaf d => if offset ≤ d.length then some (stack, d.drop offset) else none
  | .internal size children =>
    match childIdx size offset with
    | none => some (stack, lf)
    | some (idx, o) =>
      match h : children.drop idx with
      | [] => none
      | c :: cs => descendTo (cs :: stack) lf c o
termination_by n
decreasing_by
  have hm : c ∈ children := List.mem_of_mem_drop (h ▸ List.mem_cons_self)
  have := List.sizeOf_lt_of_mem hm
  simp; omega

/-- treevec.rs:690-701 (`struct TreeIter`). -/
structure TreeIter (α : Type) where
  stack : List (List (Node α))
  leaf : List α
  remaining : Nat

/-- treevec.rs:754-766: unwinding the stack until a node with unvisited children is found, then
descending.  Returns the stack, leaf and produced element. -/
def unwind {α : Type} : List (List (Node α)) →
    Option (List (List (Node α)) × List α × Option α)
  | [] => some ([], [], none)
  | [] :: rest => unwind rest
  | (c :: cs) :: rest =>
    match descend (cs :: rest) c with
    | none => none
    | some (st, []) => some (st, [], none)
    | some (st, x :: lf) => some (st, lf, some x)

/-- treevec.rs:746-769 (`TreeIter::next`). -/
def TreeIter.next {α : Type} (it : TreeIter α) : Option (TreeIter α × Option α) :=
  match it.remaining with
  | 0 => some (it, none)
  | r + 1 =>
    match it.leaf with
    | x :: lf => some (⟨it.stack, lf, r⟩, some x)
    | [] =>
      match unwind it.stack with
      | none => none
      | some (st, lf, res) => some (⟨st, lf, r⟩, res)

/-- treevec.rs:677-688 (`Iter`, `IterInner`). -/
inductive Iter (α : Type) where
  | simple (l : List α)
  | tree (it : TreeIter α)

/-- treevec.rs:772-782 (`Iterator::next for Iter`). -/
def Iter.next {α : Type} : Iter α → Option (Iter α × Option α)
  | .simple [] => some (.simple [], none)
  | .simple (x :: xs) => some (.simple xs, some x)
  | .tree it =>
    match it.next with
    | none => none
    | some (it', r) => some (.tree it', r)

/-- Calling `next` until it returns `None` (a `for` loop), at most `fuel` times.
`none` if some call panics or if the fuel runs out. -/
def Iter.collect {α : Type} : Nat → Iter α → Option (List α)
  | 0, _ => none
  | f + 1, it =>
    match it.next with
    | none => none
    | some (_, none) => some []
    | some (it', some x) => (Iter.collect f it').map (x :: ·)

namespace TreeVec
variable {α : Type}

/-- treevec.rs:442-459 (`Default::default`, `TreeVec::new`). -/
def new : TreeVec α := ⟨.leaf []⟩

/-- treevec.rs:462-467 (`is_empty`). -/
def isEmpty (t : TreeVec α) : Bool :=
  match t.root with
  | .leaf d => d.isEmpty
  | .internal _ _ => false

/-- treevec.rs:470-472 (`len`). -/
def len (t : TreeVec α) : Nat := t.root.subtreeSize

/-- treevec.rs:478-480 (`get`). -/
def get (t : TreeVec α) (i : Nat) : Option (Option α) := t.root.get i

/-- treevec.rs:486-488 (`get_mut`), used to write `x`. -/
def setAt (t : TreeVec α) (i : Nat) (x : α) : Option (Option (TreeVec α)) :=
  match t.root.setAt i x with
  | none => none
  | some none => some none
  | some (some r) => some (some ⟨r⟩)

/-- treevec.rs:495-514 (`insert`). -/
def insert (B : Nat) (t : TreeVec α) (i : Nat) (x : α) : Option (TreeVec α) :=
  match t.root.insert B i x with
  | none => none
  | some (r, none) => some ⟨r⟩
  | some (r, some node) =>
    match avInsert B [] 0 r with
    | none => none
    | some c1 =>
      match avInsert B c1 1 node with
      | none => none
      | some c2 => some ⟨.internal [r.subtreeSize, node.subtreeSize] c2⟩

/-- treevec.rs:521-531 (`remove`). -/
def remove (B : Nat) (t : TreeVec α) (i : Nat) : Option (α × TreeVec α) :=
  match t.root.remove B i with
  | none => none
  | some (x, .internal _ [c], _) => some (x, ⟨c⟩)
  | some (x, r, _) => some (x, ⟨r⟩)

/-- treevec.rs:539-553 (`iter`). -/
def iter (t : TreeVec α) : Option (Iter α) :=
  match t.root with
  | .leaf d => some (.simple d)
  | .internal s c =>
    match descend [] (.internal s c) with
    | none => none
    | some (st, lf) => some (.tree ⟨st, lf, t.len⟩)

/-- treevec.rs:606-624 (`range`), for an already normalised half-open range (588-603).
`end - start` underflowing is a panic here (debug build). -/
def range (t : TreeVec α) (start stop : Nat) : Option (Iter α) :=
  match t.root with
  | .leaf d =>
    if start ≤ stop ∧ stop ≤ d.length then some (.simple ((d.take stop).drop start)) else none
  | .internal s c =>
    if stop > t.len then none
    else if start > stop then none
    else
      match descendTo [] [] (.internal s c) start with
      | none => none
      | some (st, lf) => some (.tree ⟨st, lf, stop - start⟩)

/-- treevec.rs:581-586 (`partition_point`). -/
def partitionPoint (t : TreeVec α) (pred : α → Bool) : Option Nat := t.root.partitionPoint pred

/-- treevec.rs:650-660 (`FromIterator`): insert the elements one after the other at
indices `idx`, `idx+1`, ... -/
def fromIterAux (B : Nat) : TreeVec α → Nat → List α → Option (TreeVec α)
  | t, _, [] => some t
  | t, idx, x :: xs =>
    match t.insert B idx x with
    | none => none
    | some t' => fromIterAux B t' (idx + 1) xs

/-- treevec.rs:650-660 (`FromIterator::from_iter`). -/
def fromIter (B : Nat) (l : List α) : Option (TreeVec α) := fromIterAux B new 0 l

end TreeVec

end Verif.TreeVec
