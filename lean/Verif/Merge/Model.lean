import Verif.Topo.History

/-! # Model of `Topology::merge_coincident` (`src/topology.rs`) -/

namespace Verif.Merge
open Verif.Topo

variable {K : Type} [LinearOrder K] {W : Type} [AddCommGroup W] [DecidableEq W]

/-- topology.rs:909-911 (`point`); indexing with an unset or invalid index is a panic, modelled by `none`. -/
def pointOf (t : Topo K W) (h : Half) : Option (K × K) := (t.pointIdx h).bind fun p => t.points[p]?

/-- topology.rs:868-875: delete `i`, give its outer winding to `c`, and delete `c` too if nothing changes across it
(`is_trivial`, topology.rs:136-140). -/
def mergeInto (t : Topo K W) (i c : Nat) : Topo K W :=
  let t1 := t.delete i
  let t2 := { t1 with winding := set t1.winding c ⟨(t1.winding c).cw, (t1.winding i).ccw⟩ }
  if (t2.winding c).cw = (t2.winding c).ccw then t2.delete c else t2

/-- topology.rs:830-877: one iteration. `close s1 s2 y0 y1` is the comparison of the control points of the parts of the
input segments `s1` and `s2` between the heights `y0` and `y1` (topology.rs:853-864), left abstract. The violation of
the debug assertion of topology.rs:868 is `none`. -/
def mergeOne (close : Nat → Nat → K → K → Bool) (t : Topo K W) (i : Nat) : Option (Topo K W) :=
  if t.deleted i = true then some t
  else
    let nbr := (t.nb ⟨i, true⟩).cw
    if t.pointIdx ⟨i, false⟩ = t.pointIdx nbr.other then
      match pointOf t ⟨i, true⟩, pointOf t ⟨i, false⟩ with
      | some a, some b =>
        if a.2 ≠ b.2 ∧ t.scanWest i ≠ some nbr.idx then some t
        else if a.2 ≠ b.2 ∧ close (t.origSeg i) (t.origSeg nbr.idx) a.2 b.2 = false then some t
        else if nbr.first = true then some (mergeInto t i nbr.idx)
        else none
      | _, _ => none
    else some t

/-- topology.rs:829: the loop. -/
def mergeLoop (close : Nat → Nat → K → K → Bool) : List Nat → Topo K W → Option (Topo K W)
  | [], t => some t
  | i :: l, t =>
    match mergeOne close t i with
    | none => none
    | some t' => mergeLoop close l t'

/-- topology.rs:828-879 (`merge_coincident`). -/
def mergeCoincident (close : Nat → Nat → K → K → Bool) (t : Topo K W) : Option (Topo K W) :=
  mergeLoop close (List.range t.n) t

end Verif.Merge
