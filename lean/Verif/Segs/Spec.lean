import Verif.Segs.Lemmas

/-! Specification of the arena in terms of the *contours* of the input. -/

namespace Verif.Segs

variable {K : Type}

/-- One call on the arena. `addPath true` is `add_bez_path`, `addPath false` is
`add_non_closed_bez_path`. -/
inductive Op (K : Type) where
  | addPoints (ps : List (Pt K))
  | addClosedPolyline (ps : List (Pt K))
  | addClosedPolylines (pss : List (List (Pt K)))
  | addPath (mustBeClosed : Bool) (p : List (PathEl K))

/-- The directed edges of an open polyline. -/
def openEdges (ps : List (Pt K)) : List (Pt K × Pt K) := ps.zip ps.tail

/-- The directed edges of a closed polyline (none if there is at most one point). -/
def closedEdges (ps : List (Pt K)) : List (Pt K × Pt K) :=
  if ps.length ≤ 1 then [] else ps.zip (ps.tail ++ ps.take 1)

/-- The edges end where they began. -/
def closedLoop [DecidableEq K] (es : List (Pt K × Pt K)) : Bool :=
  match es.head?, es.getLast? with
  | some a, some b => a.1 = b.2
  | _, _ => true

/-- `es` is a connected sequence of edges leading from `a` to `b`. -/
def Leads (a b : Pt K) : List (Pt K × Pt K) → Prop
  | [] => a = b
  | (p, q) :: es => a = p ∧ Leads q b es

section
variable [LinearOrder K]

/-- The contour of one subpath of a Bezier path: its non-degenerate monotone pieces. -/
def subpathContour (mono : PathSeg K → List (Cubic K × K × K)) (sub : List (PathEl K)) :
    Option (List (Pt K × Pt K) × Kind) :=
  (kurboSegments none sub).map fun gs =>
    let es := gs.flatMap (segEdges mono)
    (es, if closedLoop es then .cycle else .dangling)

/-- `mapM` for options. -/
def allSome {α β : Type} (f : α → Option β) : List α → Option (List β)
  | [] => some []
  | a :: l =>
    match f a, allSome f l with
    | some b, some bs => some (b :: bs)
    | _, _ => none

/-- The contours a call adds, in order. -/
def Op.contours (mono : PathSeg K → List (Cubic K × K × K)) :
    Op K → Option (List (List (Pt K × Pt K) × Kind))
  | .addPoints ps => some [(openEdges ps, .chain)]
  | .addClosedPolyline ps => some [(closedEdges ps, .cycle)]
  | .addClosedPolylines pss => some (pss.map fun ps => (closedEdges ps, .cycle))
  | .addPath _ p => allSome (subpathContour mono) (subpaths p)

variable (zero one : K) (mono : PathSeg K → List (Cubic K × K × K)) (atY : Seg K → K → K)

/-- Run one call; `none` if it returns an error or panics. -/
def stepOp (s : Segments K) : Op K → Option (Segments K)
  | .addPoints ps => some (s.addPoints zero one atY ps)
  | .addClosedPolyline ps => some (s.addClosedPolyline zero one atY ps)
  | .addClosedPolylines pss => some (s.addClosedPolylines zero one atY pss)
  | .addPath c p =>
    match s.addPath zero one mono atY c p with
    | .ok s' => some s'
    | _ => none

/-- Run a history of successful calls on an arena. -/
def runOps : Segments K → List (Op K) → Option (Segments K)
  | s, [] => some s
  | s, op :: ops =>
    match stepOp zero one mono atY s op with
    | none => none
    | some s' => runOps s' ops

/-- The contours of a whole history. -/
def historyContours (ops : List (Op K)) : Option (List (List (Pt K × Pt K) × Kind)) :=
  (allSome (Op.contours mono) ops).map List.flatten

/-- The entrance schedule lists each segment once with its start height, sorted by height and then by
`x` at that height; the exit schedule lists each non-horizontal segment once with its end height,
sorted by height. -/
structure Scheduled (s : Segments K) : Prop where
  enter_perm : s.enter.Perm (s.segs.zipIdx.map fun g => (g.1.start.y, g.2))
  exit_perm : s.exit.Perm
    ((s.segs.zipIdx.filter fun g => !g.1.isHorizontal).map fun g => (g.1.stop.y, g.2))
  enter_sorted : s.enter.Pairwise fun a b => a.1 < b.1 ∨ (a.1 = b.1 ∧
    ∀ ga gb, s.segs[a.2]? = some ga → s.segs[b.2]? = some gb → atY ga a.1 ≤ atY gb a.1)
  exit_sorted : s.exit.Pairwise fun a b => a.1 ≤ b.1

end

/-- `contour_next` followed `m` times. -/
def walk (s : Segments K) (i : Nat) : Nat → Option Nat
  | 0 => some i
  | m + 1 =>
    match walk s i m with
    | none => none
    | some j =>
      match s.next j with
      | some (some k) => some k
      | _ => none

end Verif.Segs
