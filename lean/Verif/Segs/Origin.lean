import Verif.Segs.Props

/-! C49: every stored segment, read in its input direction, is exactly the input piece, and the arena
records where in the input it came from. -/

namespace Verif.Segs
set_option linter.unusedSectionVars false

variable {K : Type}

/-- What the arena knows about a segment: its curve in input direction, its parameter range in the input
segment, and the input segment. -/
structure Origin (K : Type) where
  curve : Seg K
  range : K × K
  input : PathSeg K

/-- A curve traversed the other way. -/
def Seg.rev : Seg K → Seg K
  | .line p q => .line q p
  | .cubic p0 p1 p2 p3 => .cubic p3 p2 p1 p0

/-- Segment `i` as the arena's accessors show it. -/
def Segments.origin (s : Segments K) (i : Nat) : Option (Origin K) :=
  match s.segs[i]?, s.orientation[i]?, s.splitFromPredecessor[i]?, s.inputSegs[i]? with
  | some g, some o, some r, some p => some ⟨if o then g else g.rev, r, p⟩
  | _, _, _, _ => none

section
variable [LinearOrder K] (zero one : K) (mono : PathSeg K → List (Cubic K × K × K)) (atY : Seg K → K → K)

/-- The origins of a polyline edge. -/
def edgeOrigin (e : Pt K × Pt K) : Origin K := ⟨.line e.1 e.2, (zero, one), .line e.1 e.2⟩

/-- The origins of one input path segment: degenerate lines vanish, curves give their monotone pieces,
and a piece whose end points have the same height becomes a straight line. -/
def segOrigins (g : PathSeg K) : List (Origin K) :=
  match g with
  | .line p q => if p = q then [] else [⟨.line p q, (zero, one), .line p q⟩]
  | g => (mono g).map fun m =>
      ⟨if m.1.p0.y = m.1.p3.y then .line m.1.p0 m.1.p3 else .cubic m.1.p0 m.1.p1 m.1.p2 m.1.p3, m.2, g⟩

/-- The origins added by one call. -/
def Op.origins : Op K → Option (List (Origin K))
  | .addPoints ps => some ((openEdges ps).map (edgeOrigin zero one))
  | .addClosedPolyline ps => some ((closedEdges ps).map (edgeOrigin zero one))
  | .addClosedPolylines pss => some (pss.flatMap fun ps => (closedEdges ps).map (edgeOrigin zero one))
  | .addPath _ p => (allSome (kurboSegments none) (subpaths p)).map fun gss =>
      gss.flatten.flatMap (segOrigins zero one mono)

def Item.origin (it : Item K) : Origin K := ⟨if it.orient then it.seg else it.seg.rev, it.split, it.input⟩

/-- `s'` is `s` with the given origins appended. -/
def Adds (s s' : Segments K) (os : List (Origin K)) : Prop :=
  ∃ its : List (Item K), its.map Item.origin = os ∧
    s'.segs = s.segs ++ its.map Item.seg ∧ s'.orientation = s.orientation ++ its.map Item.orient ∧
    s'.splitFromPredecessor = s.splitFromPredecessor ++ its.map Item.split ∧
    s'.inputSegs = s.inputSegs ++ its.map Item.input

theorem Adds.nil (s : Segments K) : Adds s s [] := ⟨[], by simp⟩

theorem Adds.comp {a b c : Segments K} {os ps} (h1 : Adds a b os) (h2 : Adds b c ps) :
    Adds a c (os ++ ps) := by
  obtain ⟨i1, e1, e2, e3, e4, e5⟩ := h1
  obtain ⟨i2, f1, f2, f3, f4, f5⟩ := h2
  exact ⟨i1 ++ i2, by simp [e1, f1], by simp [f2, e2], by simp [f3, e3], by simp [f4, e4], by simp [f5, e5]⟩

theorem adds_push (s : Segments K) (its : List (Item K)) : Adds s (s.pushItems its) (its.map Item.origin) :=
  ⟨its, rfl, by simp [pushItems_eq], by simp [pushItems_eq], by simp [pushItems_eq], by simp [pushItems_eq]⟩

theorem Adds.of_eq {s s1 s2 : Segments K} {os} (h : Adds s s1 os) (h1 : s2.segs = s1.segs)
    (h2 : s2.orientation = s1.orientation) (h3 : s2.splitFromPredecessor = s1.splitFromPredecessor)
    (h4 : s2.inputSegs = s1.inputSegs) : Adds s s2 os := by
  obtain ⟨its, e1, e2, e3, e4, e5⟩ := h
  exact ⟨its, e1, by rw [h1, e2], by rw [h2, e3], by rw [h3, e4], by rw [h4, e5]⟩

theorem polyItem_origin (e : Pt K × Pt K) : (polyItem zero one e).origin = edgeOrigin zero one e := by
  unfold polyItem; split <;> simp [Item.origin, edgeOrigin, Seg.rev]

theorem monotonicCubic_rev (p0 p1 p2 p3 : Pt K) :
    (Seg.monotonicCubic p3 p2 p1 p0).rev =
      if p0.y = p3.y then .line p0 p3 else .cubic p0 p1 p2 p3 := by
  simp only [Seg.monotonicCubic]; split <;> simp [Seg.rev]

theorem bezItems_origin (g : PathSeg K) :
    (bezItems zero one mono g).map Item.origin = segOrigins zero one mono g := by
  have curve : ∀ g : PathSeg K, ∀ m : Cubic K × K × K, Item.origin
      (if m.1.p0.le m.1.p3 then
        (⟨Seg.monotonicCubic m.1.p0 m.1.p1 m.1.p2 m.1.p3, true, m.2, g⟩ : Item K)
      else ⟨Seg.monotonicCubic m.1.p3 m.1.p2 m.1.p1 m.1.p0, false, m.2, g⟩) =
      ⟨if m.1.p0.y = m.1.p3.y then .line m.1.p0 m.1.p3 else .cubic m.1.p0 m.1.p1 m.1.p2 m.1.p3, m.2, g⟩ := by
    intro g m
    split
    · simp only [Item.origin, if_true, Seg.monotonicCubic, eq_comm]
    · simp only [Item.origin, Bool.false_eq_true, if_false, monotonicCubic_rev]
  cases g with
  | line p q =>
    simp only [bezItems, segOrigins]
    by_cases e : p = q
    · subst e; by_cases h : p.le p <;> simp [h]
    · have e' : ¬ q = p := fun x => e x.symm
      by_cases h : p.le q <;> simp [h, e, e', Item.origin, Seg.rev]
  | quad p q r => simp only [bezItems, segOrigins, List.map_map]; exact List.map_congr_left fun m _ => curve _ m
  | cubic p q r t =>
    simp only [bezItems, segOrigins, List.map_map]; exact List.map_congr_left fun m _ => curve _ m

theorem adds_raw (s : Segments K) (ps : List (Pt K)) :
    Adds s (s.addPolylineRaw zero one ps) ((closedEdges ps).map (edgeOrigin zero one)) := by
  simp only [Segments.addPolylineRaw]
  by_cases h : ps.length ≤ 1
  · simp only [h, if_true, closedEdges]; exact Adds.nil s
  · have := adds_push s ((cyclicPairs ps).map (polyItem zero one))
    rw [cyclicPairs_eq ps (by omega), List.map_map] at this
    rw [if_neg h, cyclicPairs_eq ps (by omega)]
    have e : Item.origin ∘ polyItem zero one = edgeOrigin zero one := funext (polyItem_origin zero one)
    rw [e] at this
    split
    · exact this.of_eq rfl rfl rfl rfl
    · exact this

theorem adds_subpath (c : Bool) (s s' : Segments K) (sub : List (PathEl K))
    (h : s.addSubpath zero one mono c sub = .ok s') :
    ∃ gs, kurboSegments none sub = some gs ∧ Adds s s' (gs.flatMap (segOrigins zero one mono)) := by
  simp only [Segments.addSubpath] at h
  cases hk : kurboSegments none sub with
  | none => rw [hk] at h; simp at h
  | some gs =>
    rw [hk] at h
    refine ⟨gs, rfl, ?_⟩
    have := adds_push s (gs.flatMap (bezItems zero one mono))
    rw [List.map_flatMap] at this
    simp only [bezItems_origin] at this
    simp only at h
    generalize s.pushItems (gs.flatMap (bezItems zero one mono)) = s1 at *
    split at h
    · split at h
      · split at h
        · cases h; exact this.of_eq rfl rfl rfl rfl
        · split at h
          · simp at h
          · cases h; exact this
      · simp at h
    · cases h; exact this

theorem adds_subpaths (c : Bool) (subs : List (List (PathEl K))) : ∀ (s s' : Segments K),
    s.addSubpaths zero one mono c subs = .ok s' →
    ∃ gss, allSome (kurboSegments none) subs = some gss ∧
      Adds s s' (gss.flatten.flatMap (segOrigins zero one mono)) := by
  induction subs with
  | nil => intro s s' h; simp only [Segments.addSubpaths] at h; cases h; exact ⟨[], rfl, Adds.nil s⟩
  | cons sub subs ih =>
    intro s s' h
    simp only [Segments.addSubpaths] at h
    cases hr : s.addSubpath zero one mono c sub with
    | ok s1 =>
      rw [hr] at h
      obtain ⟨gs, e1, e2⟩ := adds_subpath zero one mono c s s1 sub hr
      obtain ⟨gss, f1, f2⟩ := ih s1 s' h
      exact ⟨gs :: gss, by simp [allSome, e1, f1], by simpa using e2.comp f2⟩
    | err a b s1 => rw [hr] at h; simp at h
    | panic => rw [hr] at h; simp at h

theorem step_adds (s s' : Segments K) (op : Op K) (h : stepOp zero one mono atY s op = some s') :
    ∃ os, op.origins zero one mono = some os ∧ Adds s s' os := by
  cases op with
  | addPoints ps =>
    simp only [stepOp, Option.some.injEq] at h
    subst h
    refine ⟨_, rfl, ?_⟩
    simp only [Segments.addPoints]
    by_cases hl : ps.length ≤ 1
    · have : openEdges ps = [] := by
        match ps, hl with
        | [], _ => rfl
        | [a], _ => rfl
      rw [if_pos hl, this]; exact Adds.nil s
    · have := adds_push s ((pairs ps).map (polyItem zero one))
      rw [List.map_map, show Item.origin ∘ polyItem zero one = edgeOrigin zero one from
        funext (polyItem_origin zero one)] at this
      rw [if_neg hl]
      have e : pairs ps = openEdges ps := pairs_eq ps
      rw [← e]
      split
      · exact this.of_eq rfl rfl rfl rfl
      · exact this.of_eq rfl rfl rfl rfl
  | addClosedPolyline ps =>
    simp only [stepOp, Option.some.injEq] at h
    subst h
    exact ⟨_, rfl, (adds_raw zero one s ps).of_eq rfl rfl rfl rfl⟩
  | addClosedPolylines pss =>
    simp only [stepOp, Option.some.injEq] at h
    subst h
    refine ⟨_, rfl, Adds.of_eq (s1 := pss.foldl (Segments.addPolylineRaw zero one) s) ?_ rfl rfl rfl rfl⟩
    generalize s = s0
    induction pss generalizing s0 with
    | nil => exact Adds.nil s0
    | cons ps pss ih =>
      rw [List.flatMap_cons, List.foldl_cons]
      exact (adds_raw zero one s0 ps).comp (ih _)
  | addPath c p =>
    simp only [stepOp, Segments.addPath] at h
    cases hr : s.addSubpaths zero one mono c (subpaths p) with
    | ok s1 =>
      rw [hr] at h
      simp only [Option.some.injEq] at h
      subst h
      obtain ⟨gss, e1, e2⟩ := adds_subpaths zero one mono c _ s s1 hr
      exact ⟨_, by simp [Op.origins, e1], e2.of_eq rfl rfl rfl rfl⟩
    | err a b s1 => rw [hr] at h; simp at h
    | panic => rw [hr] at h; simp at h

theorem run_adds (ops : List (Op K)) : ∀ (s s' : Segments K), runOps zero one mono atY s ops = some s' →
    ∃ oss, allSome (Op.origins zero one mono) ops = some oss ∧ Adds s s' oss.flatten := by
  induction ops with
  | nil => intro s s' h; simp only [runOps, Option.some.injEq] at h; subst h; exact ⟨[], rfl, Adds.nil s⟩
  | cons op ops ih =>
    intro s s' h
    simp only [runOps] at h
    cases hst : stepOp zero one mono atY s op with
    | none => rw [hst] at h; simp at h
    | some s1 =>
      rw [hst] at h
      obtain ⟨os, e1, e2⟩ := step_adds zero one mono atY s s1 op hst
      obtain ⟨oss, f1, f2⟩ := ih s1 s' h
      exact ⟨os :: oss, by simp [allSome, e1, f1], by simpa using e2.comp f2⟩

/-- **C49.** After any history of successful calls on an empty arena the segments, each read in its
input direction together with its recorded parameter range and input segment, are exactly the pieces of
the input in order, with all their control points. -/
theorem C49_origins (ops : List (Op K)) (s : Segments K)
    (h : runOps zero one mono atY Segments.empty ops = some s) :
    ∃ oss, allSome (Op.origins zero one mono) ops = some oss ∧
      (List.range s.len).map s.origin = oss.flatten.map some := by
  obtain ⟨oss, h1, its, e1, e2, e3, e4, e5⟩ := run_adds zero one mono atY ops _ _ h
  refine ⟨oss, h1, ?_⟩
  simp only [Segments.empty, List.nil_append] at e2 e3 e4 e5
  rw [← e1]
  apply List.ext_getElem
  · simp [Segments.len, e2]
  · intro i h1 h2
    have hi : i < its.length := by simpa using h2
    simp [Segments.origin, e2, e3, e4, e5, hi, Item.origin]

end

/-- A quadratic split into two pieces, one of them pointing down, and a polyline edge. -/
example : (runOps 0 10 (fun _ => [(⟨⟨0, 0⟩, ⟨1, 1⟩, ⟨2, 2⟩, ⟨3, 3⟩⟩, 0, 5), (⟨⟨3, 3⟩, ⟨4, 2⟩, ⟨5, 1⟩, ⟨6, 0⟩⟩, 5, 10)])
    (fun g _ => g.start.x) Segments.empty
    [.addPath true [.moveTo ⟨0, 0⟩, .quadTo ⟨3, 6⟩ ⟨6, 0⟩, .closePath]]).map
      (fun s => (List.range s.len).map s.origin) = some
    [some ⟨.cubic ⟨0, 0⟩ ⟨1, 1⟩ ⟨2, 2⟩ ⟨3, 3⟩, (0, 5), .quad ⟨0, 0⟩ ⟨3, 6⟩ ⟨6, 0⟩⟩,
     some ⟨.cubic ⟨3, 3⟩ ⟨4, 2⟩ ⟨5, 1⟩ ⟨6, 0⟩, (5, 10), .quad ⟨0, 0⟩ ⟨3, 6⟩ ⟨6, 0⟩⟩,
     some ⟨.line ⟨6, 0⟩ ⟨0, 0⟩, (0, 10), .line ⟨6, 0⟩ (⟨0, 0⟩ : Pt Nat)⟩] := by
  simp [runOps, stepOp, Segments.addPath, subpaths, takeSubpath, Segments.addSubpaths, Segments.addSubpath,
    kurboSegments, kurboStep, bezItems, Pt.le, Pt.lt, Segments.pushItems, Segments.pushItem, Segments.len,
    Segments.empty, Segments.orientedStart, Segments.orientedEnd, Seg.start, Seg.stop, Seg.monotonicCubic,
    Segments.updateEnterExit, Segments.origin, List.range, List.range.loop, Seg.rev]

end Verif.Segs
