import Mathlib.Order.Defs.LinearOrder
import Mathlib.Order.Lattice
import Mathlib.Data.List.Sort
import Verif.Curve.Model
import Verif.Range.Model
import Verif.Topo.Model
import Verif.Topo.Loop

/-!
# Model of the sweep (`src/sweep/sweep_line.rs`)

The sweep line itself is a `List` (the `TreeVec` that stores it is shown to behave like a list in `Verif.TreeVec`). Heights and
horizontal positions are an arbitrary linear order `K`. A panic (`unwrap`, an index out of range, `unreachable!`, a failed
`debug_assert!`) is `none`.
-/

namespace Verif.Sweep
open Verif.Curve Verif.Range Verif.Topo
set_option linter.unusedSectionVars false

/-- sweep_line.rs:23-104 (`SegmentOrderEntry`). The cached fields `lower_bound` and `upper_bound` are always those of `seg`
(set in `new`, 118-130, and in `handle_contour_continuation`, 610-622); they are the functions `Env.lowerBound` and
`Env.upperBound` here. -/
structure Entry where
  seg : Nat
  exit : Bool
  enter : Bool
  inCh : Bool
  oldIdx : Option Nat
  oldSeg : Option Nat
deriving DecidableEq, Repr

/-- sweep_line.rs:118-131 (`SegmentOrderEntry::new`). -/
def Entry.new (seg : Nat) : Entry := ⟨seg, false, false, false, none, none⟩

/-- sweep_line.rs:133-139 (`reset_state`). -/
def Entry.reset (e : Entry) : Entry := { e with exit := false, enter := false, inCh := false, oldIdx := none, oldSeg := none }

/-- sweep_line.rs:141-145 (`set_old_idx_if_unset`). -/
def Entry.setOld (e : Entry) (i : Nat) : Entry := if e.oldIdx.isNone then { e with oldIdx := some i } else e

/-- sweep_line.rs:147-149 (`old_seg()`). -/
def Entry.oldSegId (e : Entry) : Nat := e.oldSeg.getD e.seg

/-- sweep_line.rs:155-157 (`will_really_exit`). -/
def Entry.willReallyExit (e : Entry) : Bool := e.exit && e.oldSeg.isNone

/-- sweep_line.rs:182-193 (`IntersectionEvent`). -/
structure IEvent (K : Type) where
  y : K
  left : Nat
  right : Nat
deriving DecidableEq, Repr

/-- sweep_line.rs:1074-1080 (`ChangedInterval`): half-open ranges of places of the line and of horizontal segments. -/
structure CI where
  start : Nat
  stop : Nat
  hz : Option (Nat × Nat)
deriving DecidableEq, Repr

/-- What the sweep reads and never changes: the segments (start and end points, orientation, contour neighbours, positions; `geom.rs`,
`segments.rs`), the schedules of entrances and exits, and the comparisons of segments with tolerance `eps` (`cmp`) and `4 eps`
(`cons`), which are pure functions of the pair although they are cached (`Verif.Cache`). `lower`, `upper` are `Segment::lower(y, eps)`
and `Segment::upper(y, eps)`; `lower2`, `upper2` are `lower(y, eps) - eps` and `upper(y, eps) + eps`; `farRight a b` is the test
`a.max_x() + 2 eps < b.min_x()` and `farLeft a b` the test `a.min_x() - 2 eps > b.max_x()`. `mid a b` is `(a + b) / 2`. `pp` is the
binary search of `TreeVec::partition_point` (treevec.rs:581-586) on the segments of the line; all its predicates look only at the segment. Its
result on a list that is not partitioned depends on the shape of the tree; that it is a function of the list is a simplification. -/
structure Env (K : Type) where
  entrances : List (K × Nat)
  exits : List (K × Nat)
  startX : Nat → K
  startY : Nat → K
  endX : Nat → K
  endY : Nat → K
  orient : Nat → Bool
  contourPrev : Nat → Option Nat
  contourNext : Nat → Option Nat
  atY : Nat → K → K
  lower : Nat → K → K
  upper : Nat → K → K
  lower2 : Nat → K → K
  upper2 : Nat → K → K
  lowerBound : Nat → K
  upperBound : Nat → K
  farRight : Nat → Nat → Bool
  farLeft : Nat → Nat → Bool
  cmp : Nat → Nat → CurveOrder K
  cons : Nat → Nat → CurveOrder K
  mid : K → K → K
  pp : (Nat → Bool) → List Nat → Nat
  negInf : K
  posInf : K

/-- sweep_line.rs:285-311 (`Sweeper`) with the `EventQueue` (214-222) inlined; the `BTreeSet` of intersection events is a sorted
list. -/
structure State (K : Type) where
  y : K
  line : List Entry
  nextEnter : Nat
  nextExit : Nat
  ints : List (IEvent K)
  horiz : List Nat
  snp : List Nat
  chg : List CI

/-- One step of `stableSort`. -/
def insertSorted {α : Type} (le : α → α → Bool) (a : α) : List α → List α
  | [] => [a]
  | b :: l => if le a b then a :: b :: l else b :: insertSorted le a l

/-- `slice::sort_by` and friends, which are stable; modelled by the insertion sort. -/
def stableSort {α : Type} (le : α → α → Bool) : List α → List α
  | [] => []
  | a :: l => insertSorted le a (stableSort le l)

theorem insertSorted_perm {α : Type} (le : α → α → Bool) (a : α) (l : List α) : (insertSorted le a l).Perm (a :: l) := by
  induction l with
  | nil => exact .refl _
  | cons b l ih =>
    unfold insertSorted
    split
    · exact .refl _
    · exact (List.Perm.cons b ih).trans (List.Perm.swap a b l)

theorem stableSort_perm {α : Type} (le : α → α → Bool) (l : List α) : (stableSort le l).Perm l := by
  induction l with
  | nil => exact .refl _
  | cons a l ih => exact (insertSorted_perm le a _).trans (List.Perm.cons a ih)

theorem pairwise_insertSorted {α : Type} {le : α → α → Bool} (htr : ∀ a b c, le a b = true → le b c = true → le a c = true)
    (htot : ∀ a b, (le a b || le b a) = true) (a : α) (l : List α) (h : l.Pairwise fun a b => le a b = true) :
    (insertSorted le a l).Pairwise fun a b => le a b = true := by
  induction l with
  | nil => simp [insertSorted]
  | cons b l ih =>
    unfold insertSorted
    rw [List.pairwise_cons] at h
    split
    · rename_i hab
      refine List.pairwise_cons.2 ⟨?_, List.pairwise_cons.2 h⟩
      intro c hc
      rcases List.mem_cons.1 hc with rfl | hc
      · exact hab
      · exact htr _ _ _ hab (h.1 c hc)
    · rename_i hab
      refine List.pairwise_cons.2 ⟨?_, ih h.2⟩
      intro c hc
      rcases List.mem_cons.1 ((insertSorted_perm le a l).mem_iff.1 hc) with rfl | hc
      · have := htot c b
        rw [Bool.not_eq_true] at hab
        rw [hab, Bool.false_or] at this
        exact this
      · exact h.1 c hc

theorem pairwise_stableSort {α : Type} {le : α → α → Bool} (htr : ∀ a b c, le a b = true → le b c = true → le a c = true)
    (htot : ∀ a b, (le a b || le b a) = true) (l : List α) : (stableSort le l).Pairwise fun a b => le a b = true := by
  induction l with
  | nil => exact .nil
  | cons a l ih => exact pairwise_insertSorted htr htot a _ ih

variable {K : Type} [LinearOrder K]

/-- geom.rs:385-395 (`is_horizontal`). -/
def Env.isHorizontal (E : Env K) (s : Nat) : Bool := decide (E.startY s = E.endY s)

/-! ## The event queue -/

/-- sweep_line.rs:197-205 (`Ord for IntersectionEvent`): strictly smaller. -/
def IEvent.lt (a b : IEvent K) : Bool :=
  decide (a.y < b.y) || (decide (a.y = b.y) && (decide (a.left < b.left) || (decide (a.left = b.left) && decide (a.right < b.right))))

/-- sweep_line.rs:225-227 (`EventQueue::push`), insertion in a `BTreeSet`: an event that is there already is not added again. -/
def pushInt (e : IEvent K) : List (IEvent K) → List (IEvent K)
  | [] => [e]
  | f :: fs => if e.lt f then e :: f :: fs else if f.lt e then f :: pushInt e fs else f :: fs

/-- sweep_line.rs:229-241 (`next_y`). -/
def nextY (E : Env K) (s : State K) : Option K :=
  ([E.entrances[s.nextEnter]?.map Prod.fst, E.exits[s.nextExit]?.map Prod.fst, s.ints.head?.map IEvent.y].filterMap id).min?

/-- sweep_line.rs:243-251 (`entrances_at_y`), 253-261 (`exits_at_y`): the events up to the first one whose height is larger. -/
def atHeight (y : K) (l : List (K × Nat)) (next : Nat) : List (K × Nat) := (l.drop next).takeWhile fun p => decide (p.1 ≤ y)

/-! ## Scanning for intersections -/

/-- curve/mod.rs:155-186 with enough fuel (see `Verif.Curve`). -/
def touch (E : Env K) (c : CurveOrder K) (y : K) : Option (Option (Interaction K)) := c.nextTouchAfter E.mid (c.cmps.length + 1) y

/-- sweep_line.rs:447-459 and 502-514: the event found by comparing `a` with `b`, which is somewhere to its right. -/
def touchEvent (E : Env K) (y : K) (a b : Nat) : Option (Option (IEvent K)) :=
  match touch E (E.cmp a b) y with
  | none => none
  | some none => some none
  | some (some (.cross c)) => some (some ⟨max y c, a, b⟩)
  | some (some (.touch t)) => some (if y < t then some ⟨t, b, a⟩ else none)

/-- sweep_line.rs:469-474 and 521-525: does the conservative comparison end the scan? -/
def blocks (E : Env K) (y hb : K) (a b : Nat) : Bool :=
  match (E.cons a b).iter.find? fun p => decide (y < p.hi) with
  | none => false
  | some p => decide (p.order = .left) && decide (hb ≤ p.hi)

/-- sweep_line.rs:431-475: the loop of `intersection_scan_right`; the list is the rest of the line to the right. -/
def scanRightLoop (E : Env K) (y : K) (seg : Nat) : List Entry → K → List (IEvent K) → Option (List (IEvent K))
  | [], _, ints => some ints
  | o :: rest, hb, ints =>
    if E.endY o.seg = y then scanRightLoop E y seg rest hb ints
    else if E.farRight seg o.seg then some ints
    else
      match touchEvent E y seg o.seg with
      | none => none
      | some none =>
        let hb := min hb (E.endY o.seg)
        if blocks E y hb seg o.seg then some ints else scanRightLoop E y seg rest hb ints
      | some (some ev) =>
        let hb := min (min hb (E.endY o.seg)) ev.y
        if blocks E y hb seg o.seg then some (pushInt ev ints) else scanRightLoop E y seg rest hb (pushInt ev ints)

/-- sweep_line.rs:415-476 (`intersection_scan_right`). -/
def scanRight (E : Env K) (y : K) (line : List Entry) (i : Nat) (ints : List (IEvent K)) : Option (List (IEvent K)) :=
  match line[i]? with
  | none => none
  | some e => if E.endY e.seg = y then some ints else scanRightLoop E y e.seg (line.drop (i + 1)) (E.endY e.seg) ints

/-- sweep_line.rs:489-525: the loop of `intersection_scan_left`; the list is the rest of the line to the left, nearest first. -/
def scanLeftLoop (E : Env K) (y : K) (seg : Nat) : List Entry → K → List (IEvent K) → Option (List (IEvent K))
  | [], _, ints => some ints
  | o :: rest, hb, ints =>
    if E.endY o.seg = y then scanLeftLoop E y seg rest hb ints
    else if E.farLeft seg o.seg then some ints
    else
      match touchEvent E y o.seg seg with
      | none => none
      | some none =>
        let hb := min hb (E.endY o.seg)
        if blocks E y hb o.seg seg then some ints else scanLeftLoop E y seg rest hb ints
      | some (some ev) =>
        let hb := min (min hb (E.endY o.seg)) ev.y
        if blocks E y hb o.seg seg then some (pushInt ev ints) else scanLeftLoop E y seg rest hb (pushInt ev ints)

/-- sweep_line.rs:479-526 (`intersection_scan_left`). -/
def scanLeft (E : Env K) (y : K) (line : List Entry) (i : Nat) (ints : List (IEvent K)) : Option (List (IEvent K)) :=
  match line[i]? with
  | none => none
  | some e => if E.endY e.seg = y then some ints else scanLeftLoop E y e.seg (line.take i).reverse (E.endY e.seg) ints

/-- The two scans in the order in which they are always made: first to the right, then to the left. -/
def scanBoth (E : Env K) (y : K) (line : List Entry) (i : Nat) (ints : List (IEvent K)) : Option (List (IEvent K)) :=
  (scanRight E y line i ints).bind (scanLeft E y line i)

/-- sweep_line.rs:528-533 (`scan_for_removal`). -/
def scanForRemoval (E : Env K) (y : K) (line : List Entry) (pos : Nat) (ints : List (IEvent K)) : Option (List (IEvent K)) :=
  if 0 < pos then scanBoth E y line (pos - 1) ints else some ints

/-- sweep_line.rs:535-539 (`insert`). -/
def insertScan (E : Env K) (y : K) (line : List Entry) (pos : Nat) (e : Entry) (ints : List (IEvent K)) :
    Option (List Entry × List (IEvent K)) :=
  if pos ≤ line.length then
    let line := line.insertIdx pos e
    (scanBoth E y line pos ints).map fun ints => (line, ints)
  else none

/-! ## Entering -/

/-- sweep_line.rs:1198-1213: the linear search at the end of `insertion_idx`. `i` is the place of the head of the list. -/
def insertionScan (E : Env K) (y : K) (seg : Nat) : List Entry → Nat → Nat → Option Nat
  | [], _, idx => some idx
  | e :: es, i, idx =>
    match (E.cmp e.seg seg).orderAt y with
    | none => none
    | some .right => some idx
    | some .ish =>
      match (E.cmp e.seg seg).orderAfter y with
      | none => none
      | some .left => insertionScan E y seg es (i + 1) (i + 1)
      | some _ => insertionScan E y seg es (i + 1) idx
    | some .left => insertionScan E y seg es (i + 1) (i + 1)

/-- sweep_line.rs:1142-1215 (`insertion_idx`). Simplified: a panic of `order_at` in the predicate of the second binary search is taken
as "false", because which entries it looks at depends on the shape of the tree. -/
def insertionIdx (E : Env K) (y : K) (line : List Entry) (seg : Nat) : Option Nat :=
  let x := E.startX seg
  let pos := E.pp (fun a => decide (E.upperBound a ≤ x)) (line.map Entry.seg)
  match line[pos]? with
  | none => some pos
  | some e =>
    if (match line[pos + 1]? with | none => true | some f => decide (x ≤ E.lowerBound f.seg)) then
      match (E.cmp seg e.seg).orderAfter y with
      | none => none
      | some .right => some (pos + 1)
      | some _ => some pos
    else
      let start := E.pp (fun a => decide ((E.cmp a seg).orderAt y = some .left)) (line.map Entry.seg)
      insertionScan E y seg (line.drop start) start start

/-- sweep_line.rs:590-598: the loop that shifts the places after an insertion, from the last one backwards (the list is reversed). -/
def shiftPos (pos : Nat) : List Nat → List Nat
  | [] => []
  | p :: ps => if pos ≤ p then (p + 1) :: shiftPos pos ps else p :: ps

/-- sweep_line.rs:599-604: `rposition` and the insertion after it. -/
def insertPos (pos : Nat) (snp : List Nat) : List Nat :=
  (snp.reverse.dropWhile fun p => !decide (p < pos)).reverse ++ pos :: (snp.reverse.takeWhile fun p => !decide (p < pos)).reverse

/-- sweep_line.rs:581-606 (`add_seg_needing_position`). -/
def addSeg (pos : Nat) (insert : Bool) (snp : List Nat) : List Nat :=
  insertPos pos (if insert then (shiftPos pos snp.reverse).reverse else snp)

/-- sweep_line.rs:610-622 (`handle_contour_continuation`). -/
def handleContinuation (E : Env K) (s : State K) (seg pos : Nat) : Option (State K) :=
  match s.line[pos]? with
  | none => none
  | some e =>
    let line := s.line.set pos { e with oldSeg := some e.seg, seg := seg, enter := true, exit := true }
    (scanBoth E s.y line pos s.ints).map fun ints => { s with line := line, ints := ints, snp := addSeg pos false s.snp }

/-- sweep_line.rs:555-559: the contour neighbour at the start of the segment. -/
def Env.neighborAbove (E : Env K) (seg : Nat) : Option Nat := if E.orient seg then E.contourPrev seg else E.contourNext seg

/-- sweep_line.rs:560-571: the place of the line that the segment continues, if there is one next to `pos`. `none` is the failed
`debug_assert_eq!` that the segments are connected. -/
def continuationPos (E : Env K) (s : State K) (seg pos : Nat) : Option (Option Nat) :=
  match E.neighborAbove seg with
  | none => some none
  | some c =>
    if E.startY c < s.y then
      if E.endX c = E.startX seg ∧ E.endY c = E.startY seg then
        if (s.line[pos]?.map Entry.seg) = some c then some (some pos)
        else if 0 < pos ∧ (s.line[pos - 1]?.map Entry.seg) = some c then some (some (pos - 1))
        else some none
      else none
    else some none

/-- sweep_line.rs:541-579 (`handle_enter`). -/
def handleEnter (E : Env K) (s : State K) (seg : Nat) : Option (State K) :=
  if E.isHorizontal seg then some { s with horiz := s.horiz ++ [seg] }
  else
    match insertionIdx E s.y s.line seg with
    | none => none
    | some pos =>
      match continuationPos E s seg pos with
      | none => none
      | some (some p) => handleContinuation E s seg p
      | some none =>
        (insertScan E s.y s.line pos { Entry.new seg with enter := true, exit := false } s.ints).map fun r =>
          { s with line := r.1, ints := r.2, snp := addSeg pos true s.snp }

/-! ## Exiting -/

/-- sweep_line.rs:1221-1225 (`position`). -/
def position (line : List Entry) (seg : Nat) : Option Nat :=
  line.findIdx? fun e => decide (e.seg = seg) || decide (e.oldSeg = some seg)

/-- sweep_line.rs:626-639 (`handle_exit`). -/
def handleExit (E : Env K) (s : State K) (seg : Nat) : Option (State K) :=
  match position s.line seg with
  | none => none
  | some pos =>
    match s.line[pos]? with
    | none => none
    | some e =>
      if e.oldSeg = some seg then some s
      else
        let line := s.line.set pos { e with exit := true }
        (scanForRemoval E s.y line pos s.ints).map fun ints => { s with line := line, ints := ints, snp := s.snp ++ [pos] }

/-! ## Intersections -/

/-- sweep_line.rs:650-681: the loop that collects the places to move. The list `js` holds the places still to look at; the result is
either the height of the delayed event or the places to move. -/
def collectMoves (E : Env K) (y : K) (line : List Entry) (left right : Nat) : List Nat → List Nat → Option (K ⊕ List Nat)
  | [], acc => some (.inr acc)
  | j :: js, acc =>
    match line[j]? with
    | none => none
    | some e =>
      if e.willReallyExit then collectMoves E y line left right js acc
      else
        match (E.cmp left e.seg).entryAt y with
        | none => none
        | some p =>
          if p.order = .left then
            match (E.cmp e.seg right).entryAt y with
            | none => none
            | some q =>
              if q.order = .left then some (.inl (min p.hi q.hi))
              else collectMoves E y line left right js (acc ++ [j])
          else collectMoves E y line left right js acc

/-- sweep_line.rs:685-689, 1042-1045: set `old_idx` of the entries at the places `a ≤ i < b`. -/
def markOld (line : List Entry) (a b : Nat) : List Entry := line.mapIdx fun i e => if a ≤ i ∧ i < b then e.setOld i else e

/-- sweep_line.rs:692-696: remove the entries at the given places (largest first). -/
def removeScan (E : Env K) (y : K) : List Nat → List Entry → List (IEvent K) → Option (List Entry × List Entry × List (IEvent K))
  | [], line, ints => some ([], line, ints)
  | j :: js, line, ints =>
    match line[j]? with
    | none => none
    | some e =>
      match scanForRemoval E y (line.eraseIdx j) j ints with
      | none => none
      | some ints =>
        match removeScan E y js (line.eraseIdx j) ints with
        | none => none
        | some (removed, line, ints) => some (e :: removed, line, ints)

/-- sweep_line.rs:702-704: insert the removed entries. -/
def insertAll (E : Env K) (y : K) (pos : Nat) : List Entry → List Entry → List (IEvent K) → Option (List Entry × List (IEvent K))
  | [], line, ints => some (line, ints)
  | e :: es, line, ints =>
    match insertScan E y line pos e ints with
    | none => none
    | some (line, ints) => insertAll E y pos es line ints

/-- sweep_line.rs:641-719 (`handle_intersection`). -/
def handleIntersection (E : Env K) (s : State K) (left right : Nat) : Option (State K) :=
  match position s.line left, position s.line right with
  | some l, some r =>
    if l < r then
      match collectMoves E s.y s.line left right (List.range' (l + 1) (r - l - 1)) [l] with
      | none => none
      | some (.inl y') => some { s with ints := pushInt ⟨y', left, right⟩ s.ints }
      | some (.inr moves) =>
        match removeScan E s.y moves.reverse (markOld s.line l (r + 1)) s.ints with
        | none => none
        | some (removed, line, ints) =>
          (insertAll E s.y (r + 1 - moves.length) removed line ints).map fun q =>
            { s with line := q.1, ints := q.2, snp := s.snp ++ List.range' l (r + 1 - l) }
    else
      ((scanRight E s.y s.line r s.ints).bind (scanLeft E s.y s.line l)).map fun ints =>
        { s with ints := ints, snp := s.snp ++ List.range' r (l + 1 - r) }
  | _, _ => none

/-- sweep_line.rs:377-380 with 263-269 (`next_intersection_at_y`): handle the events at the height of the line until there is none.
The loop of the code has no bound; `fuel` bounds it here and running out is `none`. -/
def intLoop (E : Env K) : Nat → State K → Option (State K)
  | 0, _ => none
  | fuel + 1, s =>
    match s.ints with
    | [] => some s
    | e :: rest =>
      if e.y = s.y then
        match handleIntersection E { s with ints := rest } e.left e.right with
        | none => none
        | some s => intLoop E fuel s
      else some s

/-! ## Changed intervals -/

/-- sweep_line.rs:1083-1092 (`ChangedInterval::merge`). -/
def CI.merge (a b : CI) : CI :=
  ⟨min a.start b.start, max a.stop b.stop,
    match a.hz, b.hz with
    | none, none => none
    | none, some r => some r
    | some r, none => some r
    | some p, some q => some (min p.1 q.1, max p.2 q.2)⟩

/-- sweep_line.rs:1606-1623 (`merge_adjacent`): `cur` is the interval at `write_idx`. -/
def mergeFrom (cur : CI) : List CI → List CI
  | [] => [cur]
  | c :: cs => if cur.stop < c.start then cur :: mergeFrom c cs else mergeFrom (cur.merge c) cs

/-- sweep_line.rs:1606-1623 (`merge_adjacent`). -/
def mergeAdjacent : List CI → List CI
  | [] => []
  | c :: cs => mergeFrom c cs

/-- sweep_line.rs:877-914: the places met by a horizontal segment. -/
def horizontalSpan (E : Env K) (y : K) (line : List Entry) (seg : Nat) : Nat × Nat :=
  let start := E.pp (fun a => decide (E.upper2 a y ≤ E.startX seg)) (line.map Entry.seg)
  (start, start + ((line.drop start).takeWhile fun e => decide (E.lower2 e.seg y ≤ E.endX seg)).length)

/-- sweep_line.rs:871-916: the loop of `compute_horizontal_changed_intervals`. `lastEnd` is `none` for minus infinity; `chg` is the list
of intervals in reverse. -/
def horizontalLoop (E : Env K) (y : K) : List Nat → Nat → Option K → List Entry → List CI → Option (List Entry × List CI)
  | [], _, _, line, chg => some (line, chg)
  | seg :: rest, idx, lastEnd, line, chg =>
    let span := horizontalSpan E y line seg
    let line := markOld line span.1 span.2
    match lastEnd with
    | none => horizontalLoop E y rest (idx + 1) (some (E.endX seg)) line (⟨span.1, span.2, some (idx, idx + 1)⟩ :: chg)
    | some last =>
      if E.startX seg ≤ last then
        match chg with
        | ⟨a, b, some h⟩ :: chg =>
          horizontalLoop E y rest (idx + 1) (some (max last (E.endX seg))) line (⟨a, max b span.2, some (h.1, idx + 1)⟩ :: chg)
        | _ => none
      else horizontalLoop E y rest (idx + 1) (some (max last (E.endX seg))) line (⟨span.1, span.2, some (idx, idx + 1)⟩ :: chg)

/-- sweep_line.rs:867-868: the horizontal segments, sorted by the start. -/
def sortHoriz (E : Env K) (h : List Nat) : List Nat := stableSort (fun a b => decide (E.startX a ≤ E.startX b)) h

/-- sweep_line.rs:926-987 (`compute_contour_adjacent_changed_intervals`); `chg` is the list of intervals in reverse. -/
def contourLoop (E : Env K) (y : K) : List Nat → List Entry → List CI → Option (List Entry × List CI)
  | [], line, chg => some (line, chg)
  | j :: js, line, chg =>
    match line[j]? with
    | none => none
    | some e =>
      if e.oldSeg.isSome then contourLoop E y js line chg
      else if !(e.enter || e.exit) then contourLoop E y js line chg
      else
        let x := if e.enter then E.startX e.seg else E.endX e.seg
        let a := j - ((line.take j).reverse.takeWhile fun f => decide (x ≤ E.upper2 f.seg y)).length
        let b := j + ((line.drop (j + 1)).takeWhile fun f => decide (E.lower2 f.seg y ≤ x)).length
        let line := markOld (markOld line a j) (j + 1) (b + 1)
        contourLoop E y js line (if a < b then ⟨a, b + 1, none⟩ :: chg else chg)

/-- sweep_line.rs:1041-1045, 1057-1060: put the entries at the places `a ≤ i < b` in a changed interval. -/
def markCh (line : List Entry) (a b : Nat) : List Entry :=
  line.mapIdx fun i e => if a ≤ i ∧ i < b then { e.setOld i with inCh := true } else e

/-- sweep_line.rs:1021-1046: extend the interval to the right. The list holds the places still to look at. -/
def growRight (E : Env K) (y : K) : List Nat → List Entry → Nat → Option (List Entry × Nat)
  | [], line, stop => some (line, stop)
  | i :: is, line, stop =>
    match line[stop - 1]?, line[i]? with
    | some a, some b =>
      match (E.cons a.seg b.seg).orderAt y with
      | none => none
      | some .left => some (line, stop)
      | some _ =>
        match (E.cmp a.seg b.seg).orderAt y with
        | none => none
        | some .left => growRight E y is line stop
        | some _ => growRight E y is (markCh line stop (i + 1)) (i + 1)
    | _, _ => none

/-- sweep_line.rs:1048-1064: extend the interval to the left. -/
def growLeft (E : Env K) (y : K) : List Nat → List Entry → Nat → Option (List Entry × Nat)
  | [], line, start => some (line, start)
  | i :: is, line, start =>
    match line[i]?, line[start]? with
    | some a, some b =>
      match (E.cons a.seg b.seg).orderAt y with
      | none => none
      | some .left => some (line, start)
      | some _ =>
        match (E.cmp a.seg b.seg).orderAt y with
        | none => none
        | some .left => growLeft E y is line start
        | some _ => growLeft E y is (markCh line i start) i
    | _, _ => none

/-- sweep_line.rs:999-1067: the loop of `compute_changed_intervals`; `chg` is the list of intervals in reverse. -/
def positionLoop (E : Env K) (y : K) : List Nat → List Entry → List CI → Option (List Entry × List CI)
  | [], line, chg => some (line, chg)
  | idx :: rest, line, chg =>
    match line[idx]? with
    | none => none
    | some e =>
      if e.inCh then positionLoop E y rest line chg
      else
        match growRight E y (List.range' (idx + 1) (line.length - (idx + 1))) (markCh line idx (idx + 1)) (idx + 1) with
        | none => none
        | some (line, stop) =>
          match growLeft E y (List.range idx).reverse line idx with
          | none => none
          | some (line, start) => positionLoop E y rest line (⟨start, stop, none⟩ :: chg)

/-- sweep_line.rs:994-1069 (`compute_changed_intervals`). -/
def computeChanged (E : Env K) (s : State K) : Option (State K) :=
  let h := sortHoriz E s.horiz
  match horizontalLoop E s.y h 0 none s.line [] with
  | none => none
  | some (line, chg) =>
    match contourLoop E s.y s.snp line chg with
    | none => none
    | some (line, chg) =>
      match positionLoop E s.y s.snp line chg with
      | none => none
      | some (line, chg) =>
        some { s with horiz := h, line := line, chg := mergeAdjacent (stableSort (fun a b => decide (a.start ≤ b.start)) chg.reverse) }

/-! ## Advancing -/

/-- sweep_line.rs:398-402: reset the entries at the places `a ≤ i < b`. -/
def resetRange (line : List Entry) (c : CI) : List Entry := line.mapIdx fun i e => if c.start ≤ i ∧ i < c.stop then e.reset else e

/-- sweep_line.rs:391-396: does the entry at this place leave the line? -/
def exitsHere (line : List Entry) (i : Nat) : Bool := match line[i]? with | some e => e.willReallyExit | none => false

/-- sweep_line.rs:390-413 (`advance`). -/
def advance (s : State K) (y : K) : Option (State K) :=
  if s.snp.all fun i => decide (i < s.line.length) then
    let snp := s.snp.filter (exitsHere s.line)
    let line := s.chg.foldl resetRange s.line
    let snp := (stableSort (fun a b => decide (a ≤ b)) snp).dedup
    some { s with y := y, line := snp.reverse.foldl List.eraseIdx line, snp := [], horiz := [], chg := [] }
  else none

/-- sweep_line.rs:361-366, 370-375: the loops over the entrances and the exits, with their `debug_assert_eq!`. -/
def handleAll (f : State K → Nat → Option (State K)) (y : K) : List (K × Nat) → State K → Option (State K)
  | [], s => some s
  | e :: es, s =>
    if e.1 = y then
      match f s e.2 with
      | none => none
      | some s => handleAll f y es s
    else none

/-- sweep_line.rs:346-388 (`next_line`): the outer option is a panic, the inner one the result. -/
def nextLine (E : Env K) (fuel : Nat) (s : State K) : Option (Option (State K)) :=
  match nextY E s with
  | none => some none
  | some y =>
    match advance s y with
    | none => none
    | some s =>
      let enters := atHeight y E.entrances s.nextEnter
      match handleAll (handleEnter E) y enters { s with nextEnter := s.nextEnter + enters.length } with
      | none => none
      | some s =>
        let exits := atHeight y E.exits s.nextExit
        match handleAll (handleExit E) y exits { s with nextExit := s.nextExit + exits.length } with
        | none => none
        | some s =>
          match intLoop E fuel s with
          | none => none
          | some s =>
            match computeChanged E s with
            | none => none
            | some s => some (some s)

/-- sweep_line.rs:314-328 (`Sweeper::new`). -/
def State.new (E : Env K) : State K :=
  let s : State K := ⟨E.posInf, [], 0, 0, [], [], [], []⟩
  { s with y := (nextY E s).getD E.posInf }

/-! ## Positions -/

/-- sweep_line.rs:1250-1259: the running maximum of the lower bounds. -/
def runMax (f : Entry → K) : K → List Entry → List K
  | _, [] => []
  | m, e :: es => max m (f e) :: runMax f (max m (f e)) es

/-- sweep_line.rs:1261-1266: the running minimum of the upper bounds, from the right. -/
def sufMin (f : Entry → K) (top : K) : List Entry → List K
  | [] => []
  | e :: es => min ((sufMin f top es).headD top) (f e) :: sufMin f top es

/-- sweep_line.rs:1237-1269 (`feasible_horizontal_positions`). -/
def feasible (E : Env K) (y : K) (segOf : Entry → Nat) (es : List Entry) : List (Entry × K × K) :=
  let mx := es.foldl (fun m e => max m (E.atY (segOf e) y)) E.negInf
  let mn := es.foldl (fun m e => min m (E.atY (segOf e) y)) E.posInf
  let lo := (runMax (fun e => E.lower (segOf e) y) E.negInf es).map fun a => max a mn
  let hi := (sufMin (fun e => E.upper (segOf e) y) E.posInf es).map fun b => min b mx
  es.zip (lo.zip hi)

/-- sweep_line.rs:1485-1511: positions in the old order. -/
def oldPass (E : Env K) (y : K) : List (Entry × K × K) → K → List (OutputEvent K)
  | [], _ => []
  | (e, lo, hi) :: ps, m =>
    let pref := if e.exit then E.endX e.oldSegId else if e.enter then E.startX e.seg else E.atY e.seg y
    let x := min (max (max pref lo) m) hi
    ⟨x, e.oldSeg.isSome || !e.enter, E.negInf, !e.exit, e.oldSegId, none, e.oldIdx⟩ :: oldPass E y ps x

/-- sweep_line.rs:1527-1558: positions in the new order. `idx` counts the places from `start`. -/
def newPass (E : Env K) (y : K) (start : Nat) : List (Entry × K × K) → Nat → List (OutputEvent K) → K → Option (List (OutputEvent K))
  | [], _, evs, _ => some evs
  | (e, lo, hi) :: ps, idx, evs, m =>
    match e.oldIdx with
    | none => none
    | some o =>
      if o < start then none
      else
        match evs[o - start]? with
        | none => none
        | some ev =>
          if ev.segIdx = e.oldSegId then
            let pref := if lo ≤ ev.x0 ∧ ev.x0 ≤ hi then ev.x0 else E.atY e.seg y
            let x1 := min (max (max pref lo) m) hi
            let evs := evs.set (o - start) { ev with sweepIdx := some (start + idx), x1 := x1 }
            let evs := if e.oldSeg.isSome then evs ++ [⟨x1, false, x1, true, e.seg, some (start + idx), none⟩] else evs
            newPass E y start ps (idx + 1) evs x1
          else none

/-- sweep_line.rs:1464-1471: fill the buffer with the entries in the old order. -/
def fillOld (start : Nat) : List Entry → List Entry → Option (List Entry)
  | [], buf => some buf
  | e :: es, buf =>
    match e.oldIdx with
    | none => none
    | some o => if start ≤ o ∧ o - start < buf.length then fillOld start es (buf.set (o - start) e) else none

/-- sweep_line.rs:1449-1458: the dummy entry. -/
def dummyEntry : Entry := ⟨424242, false, false, false, none, none⟩

/-- sweep_line.rs:1461-1463: `resize` of the buffer, which may hold entries of an earlier range. -/
def resizeBuf (buf : List Entry) (n : Nat) : List Entry := buf.take n ++ List.replicate (n - buf.length) dummyEntry

/-- sweep_line.rs:1564-1572: exact positions for segments that start or end here. -/
def exactEnds (E : Env K) (ev : OutputEvent K) : OutputEvent K :=
  { ev with
    x0 := if ev.connectedAbove then ev.x0 else E.startX ev.segIdx
    x1 := if ev.connectedBelow then ev.x1 else E.endX ev.segIdx }

/-- sweep_line.rs:1575-1587: the event of a horizontal segment. -/
def horizEvent (E : Env K) (seg : Nat) : OutputEvent K := ⟨E.startX seg, false, E.endX seg, false, seg, none, none⟩

/-- sweep_line.rs:1379-1437 (`next_range_single_seg`). -/
def singleEvents (E : Env K) (y : K) (line : List Entry) (idx : Nat) : Option (List (OutputEvent K)) :=
  match line[idx]? with
  | none => none
  | some e =>
    let x := E.atY e.seg y
    match e.oldSeg with
    | some o => some [⟨x, true, x, false, o, none, e.oldIdx⟩, ⟨x, false, x, true, e.seg, some idx, none⟩]
    | none => some [⟨x, !e.enter, x, !e.exit, e.seg, some idx, e.oldIdx⟩]

/-- sweep_line.rs:1441-1600 (`next_range`): the buffer `old_line` afterwards and the events of the range of the interval `c`. `buf` is
whatever is left in the buffer. -/
def nextRange (E : Env K) (s : State K) (buf : List Entry) (c : CI) : Option (List Entry × List (OutputEvent K)) :=
  if c.stop - c.start = 1 ∧ c.hz = none then (singleEvents E s.y s.line c.start).map fun evs => (buf, evs)
  else
    let part := (s.line.drop c.start).take (c.stop - c.start)
    match fillOld c.start part (resizeBuf buf (c.stop - c.start)) with
    | none => none
    | some old =>
      let evs := oldPass E s.y (feasible E s.y Entry.oldSegId old) E.negInf
      match newPass E s.y c.start (feasible E s.y Entry.seg part) 0 evs E.negInf with
      | none => none
      | some evs =>
        let hs := match c.hz with | none => [] | some h => (s.horiz.drop h.1).take (h.2 - h.1)
        some (old, stableSort OutputEvent.le (evs.map (exactEnds E) ++ hs.map (horizEvent E)))

/-! ## The driver -/

variable {W : Type} [AddCommGroup W]

/-- topology.rs:511-529: the ranges of one sweep line, from left to right. The buffer is the one left behind by the range before. -/
def processLine (E : Env K) (single : Nat → Bool → W) (s : State K) : List CI → List Entry → Topo K W → Option (List Entry × Topo K W)
  | [], buf, t => some (buf, t)
  | c :: cs, buf, t =>
    match nextRange E s buf c with
    | none => none
    | some (buf, evs) =>
      let west := if c.start = 0 then none else s.line[c.start - 1]?.map Entry.seg
      let east := s.line[c.stop]?
      match processRange single E.orient s.y evs west (east.map Entry.seg) ((east.map Entry.inCh).getD false) t with
      | none => none
      | some t => processLine E single s cs buf t

/-- topology.rs:511-529: the sweep lines from top to bottom. `fuel` bounds the number of lines, `fuel2` the number of intersections
handled on one line. -/
def sweepLoop (E : Env K) (single : Nat → Bool → W) (fuel2 : Nat) : Nat → State K → List Entry → Topo K W → Option (Topo K W)
  | 0, _, _, _ => none
  | fuel + 1, s, buf, t =>
    match nextLine E fuel2 s with
    | none => none
    | some none => some t
    | some (some s) =>
      match processLine E single s s.chg buf t with
      | none => none
      | some (buf, t) => sweepLoop E single fuel2 fuel s buf t

/-- topology.rs:490-531 (`from_segments`, before `merge_coincident`). -/
def fromSegments (E : Env K) (single : Nat → Bool → W) (fuel2 fuel : Nat) : Option (Topo K W) :=
  sweepLoop E single fuel2 fuel (State.new E) [] Topo.init

end Verif.Sweep
