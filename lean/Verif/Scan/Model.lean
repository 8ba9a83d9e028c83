import Verif.Merge.Model
import Mathlib.Order.WithBot

/-!
# Model of the scan-line orders (`src/topology.rs`, `ScanLineOrder`, `build_scan_line_orders`)

Heights are elements of an arbitrary linear order `K` (no NaN); `f64::INFINITY` is `⊤`.
-/

namespace Verif.Scan
open Verif.Topo Verif.Merge
set_option linter.unusedSectionVars false

variable {K : Type} [LinearOrder K] {W : Type} [AddCommGroup W] [DecidableEq W]

/-- One entry `(y, neighbour)` of a `HalfScanLineOrder` (topology.rs:1628-1632). -/
abbrev Rec (K : Type) := K × Option Nat

/-- topology.rs:1650-1663 (`HalfScanLineOrder::iter`): each record with the height of the next one. -/
def iter (recs : List (Rec K)) : List (K × WithTop K × Option Nat) :=
  let ends : List (WithTop K) := ((recs.map fun r => ((r.1 : K) : WithTop K)).drop 1) ++ [⊤]
  (recs.zip ends).map fun p => (p.1.1, p.2, p.1.2)

/-- topology.rs:1635-1641 (`HalfScanLineOrder::neighbor_after`). -/
def neighborAfter (recs : List (Rec K)) (y : K) : Option Nat :=
  (((iter recs).takeWhile fun p => decide (p.1 ≤ y)).find? fun p => decide ((y : WithTop K) < p.2.1)).bind fun p => p.2.2

/-- topology.rs:1698-1705 (`ScanLineOrder`), and the two maps while they are being built. -/
structure Maps (K : Type) where
  west : Nat → List (Rec K)
  east : Nat → List (Rec K)

/-- topology.rs:815-817 (`is_horizontal`); indexing with an unset index is a panic. -/
def isHorizontal (t : Topo K W) (i : Nat) : Option Bool :=
  match pointOf t ⟨i, true⟩, pointOf t ⟨i, false⟩ with
  | some a, some b => some (decide (a.2 = b.2))
  | _, _ => none

/-- topology.rs:1315-1320: the first west neighbours of the non-horizontal segments. -/
def loop1 (t : Topo K W) : List Nat → Maps K → Option (Maps K)
  | [], m => some m
  | i :: l, m =>
    match isHorizontal t i with
    | none => none
    | some true => loop1 t l m
    | some false =>
      match pointOf t ⟨i, true⟩ with
      | none => none
      | some a =>
        match t.scanWest i with
        | none => loop1 t l m
        | some w => loop1 t l { m with west := set m.west i (m.west i ++ [(a.2, some w)]) }

/-- The debug assertions of topology.rs:1327-1329 and 1339-1341. -/
def later (y : K) (recs : List (Rec K)) : Bool :=
  match recs.getLast? with
  | none => true
  | some r => decide (r.1 < y)

/-- topology.rs:1322-1333: the first east neighbours, recorded on both sides. -/
def loop2 (t : Topo K W) : List Nat → Maps K → Option (Maps K)
  | [], m => some m
  | i :: l, m =>
    match pointOf t ⟨i, true⟩ with
    | none => none
    | some a =>
      match t.scanEast i with
      | none => loop2 t l m
      | some e =>
        let m1 : Maps K := { m with east := set m.east i (m.east i ++ [(a.2, some e)]) }
        if later a.2 (m1.west e) then
          loop2 t l { m1 with west := set m1.west e (m1.west e ++ [(a.2, some i)]) }
        else none

/-- topology.rs:1335-1344: the first west neighbours, recorded on the other side. -/
def loop3 (t : Topo K W) : List Nat → Maps K → Option (Maps K)
  | [], m => some m
  | i :: l, m =>
    match isHorizontal t i with
    | none => none
    | some true => loop3 t l m
    | some false =>
      match pointOf t ⟨i, true⟩ with
      | none => none
      | some a =>
        match t.scanWest i with
        | none => loop3 t l m
        | some w =>
          if later a.2 (m.east w) then loop3 t l { m with east := set m.east w (m.east w ++ [(a.2, some i)]) }
          else none

/-- topology.rs:1350-1357: changes because segments ended. -/
def loop4 : List (K × Option Nat × Option Nat) → Maps K → Maps K
  | [], m => m
  | (y, w, e) :: l, m =>
    let m1 : Maps K := match e with
      | none => m
      | some e => { m with west := set m.west e (m.west e ++ [(y, w)]) }
    let m2 : Maps K := match w with
      | none => m1
      | some w => { m1 with east := set m1.east w (m1.east w ++ [(y, e)]) }
    loop4 l m2

/-- `Vec::dedup`: remove all but the first of consecutive equal elements. -/
def dedup : List (Rec K) → List (Rec K)
  | [] => []
  | [a] => [a]
  | a :: b :: l => if a = b then dedup (a :: l) else a :: dedup (b :: l)
termination_by l => l.length

/-- topology.rs:1358-1361: stable sort by height, then remove duplicates. -/
def tidy (recs : List (Rec K)) : List (Rec K) := dedup (recs.mergeSort fun a b => decide (a.1 ≤ b.1))

/-- topology.rs:1300-1370 (`build_scan_line_orders`). -/
def buildScanLineOrders (t : Topo K W) : Option (Maps K) :=
  match loop1 t (List.range t.n) ⟨fun _ => [], fun _ => []⟩ with
  | none => none
  | some m1 =>
    match loop2 t (List.range t.n) m1 with
    | none => none
    | some m2 =>
      match loop3 t (List.range t.n) m2 with
      | none => none
      | some m3 =>
        let m4 := loop4 t.scanAfter m3
        some ⟨fun i => tidy (m4.west i), fun i => tidy (m4.east i)⟩

end Verif.Scan
