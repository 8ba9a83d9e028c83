import Verif.TreeVec.Model

/-!
# Specification vocabulary for `TreeVec`

`toList` is the abstract sequence represented by a tree; `Good` is the documented shape
of a tree (treevec.rs:6-12, 36-52, 419-439).
-/

namespace Verif.TreeVec

variable {α : Type}

/-- The sequence stored in a subtree: the leaves from left to right. -/
def Node.toList : Node α → List α
  | .leaf d => d
  | .internal _ cs => cs.attach.flatMap fun ⟨c, _⟩ => c.toList

/-- The sequence stored in the container. -/
def TreeVec.toList (t : TreeVec α) : List α := t.root.toList

/-- Number of entries of a node (elements of a leaf, children of an internal node). -/
def Node.width : Node α → Nat
  | .leaf d => d.length
  | .internal _ cs => cs.length

/-- `Shape B h n`: `n` is a subtree of uniform height `h` in which all nodes hold at most `B`
entries, all nodes strictly below `n` hold at least `B/2` entries, internal nodes are non-empty and
every stored size is the number of elements of the corresponding child. -/
def Shape (B : Nat) : Nat → Node α → Prop
  | 0, .leaf d => d.length ≤ B
  | _, .leaf _ => False
  | 0, .internal _ _ => False
  | h + 1, .internal size cs =>
    size = cs.map (fun c => c.toList.length) ∧ cs.length ≤ B ∧ 1 ≤ cs.length ∧
      ∀ c ∈ cs, Shape B h c ∧ B / 2 ≤ c.width

/-- The documented invariant of a whole container of height `h`: the shape above, and an internal
root has at least two children. -/
def GoodAt (B h : Nat) (t : TreeVec α) : Prop :=
  Shape B h t.root ∧ (h ≠ 0 → 2 ≤ t.root.width)

/-- The documented invariant of a whole container. -/
def Good (B : Nat) (t : TreeVec α) : Prop := ∃ h, GoodAt B h t

end Verif.TreeVec
