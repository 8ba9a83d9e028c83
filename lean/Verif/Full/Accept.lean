import Verif.Full.Arena

/-!
# Which paths are accepted

The specification follows the pen: a subpath begins at the point of its first element, each element moves the pen to its last point, and `ClosePath`
moves it back to the beginning.
-/

namespace Verif.Full
open Verif.Segs (Segments PathSeg PathEl)
set_option linter.unusedSectionVars false

/-- The point an element moves the pen to, if it names one. -/
def target : PathEl ℝ → Option (Segs.Pt ℝ)
  | .moveTo p => some p
  | .lineTo p => some p
  | .quadTo _ p => some p
  | .curveTo _ _ p => some p
  | .closePath => none

/-- Where the pen is after some elements of a subpath that began at `start`. -/
def pen (start : Segs.Pt ℝ) (last : Segs.Pt ℝ) (els : List (PathEl ℝ)) : Segs.Pt ℝ :=
  els.foldl (fun _ el => (target el).getD start) last

/-- What there is to say about a subpath. -/
inductive Verdict where
  | closed
  | unclosed (start stop : Segs.Pt ℝ)
  | headless

open Classical in
/-- A subpath is closed if the pen ends where it began; it is headless if it begins with `ClosePath`. -/
noncomputable def verdict : List (PathEl ℝ) → Verdict
  | [] => .closed
  | el :: els =>
    match target el with
    | none => .headless
    | some p => if p = pen p p els then .closed else .unclosed p (pen p p els)

/-- The first verdict that is not `closed`. -/
def firstBad : List Verdict → Verdict
  | [] => .closed
  | .closed :: vs => firstBad vs
  | v :: _ => v

theorem line_leads (p q : Segs.Pt ℝ) : Segs.Leads p q (Segs.segEdges mono (.line p q)) := by
  simp only [Segs.segEdges]
  by_cases e : p = q
  · rw [if_pos e]; exact e
  · rw [if_neg e]; exact ⟨rfl, rfl⟩

/-- The curves of a subpath lead from where the pen is to where it ends. -/
theorem kurbo_pen (els : List (PathEl ℝ)) (hmv : ∀ p, .moveTo p ∉ els) : ∀ (start last : Segs.Pt ℝ),
    ∃ gs, Segs.kurboSegments (some (start, last)) els = some gs ∧ Segs.Leads last (pen start last els) (gs.flatMap (Segs.segEdges mono)) := by
  induction els with
  | nil => intro start last; exact ⟨[], rfl, rfl⟩
  | cons el els ih =>
    intro start last
    have ih' := ih (fun p hp => hmv p (List.mem_cons_of_mem _ hp))
    simp only [Segs.kurboSegments]
    cases el with
    | moveTo p => exact absurd List.mem_cons_self (hmv p)
    | lineTo p =>
      obtain ⟨gs, h1, h2⟩ := ih' start p
      simp only [Segs.kurboStep, h1]
      exact ⟨_, rfl, (line_leads last p).append h2⟩
    | quadTo p1 p =>
      obtain ⟨gs, h1, h2⟩ := ih' start p
      simp only [Segs.kurboStep, h1]
      exact ⟨_, rfl, (mono_leads.1 last p1 p).append h2⟩
    | curveTo p1 p2 p =>
      obtain ⟨gs, h1, h2⟩ := ih' start p
      simp only [Segs.kurboStep, h1]
      exact ⟨_, rfl, (mono_leads.2 last p1 p2 p).append h2⟩
    | closePath =>
      obtain ⟨gs, h1, h2⟩ := ih' start start
      by_cases e : last = start
      · subst e
        simp only [Segs.kurboStep, ne_eq, not_true_eq_false, if_false, h1]
        exact ⟨_, rfl, h2⟩
      · simp only [Segs.kurboStep, ne_eq, e, not_false_eq_true, if_true, h1]
        exact ⟨_, rfl, (line_leads last start).append h2⟩

/-- The contour of a subpath, by the verdict. -/
theorem contour_verdict (sub : List (PathEl ℝ)) (hmv : ∀ p, .moveTo p ∉ sub.tail) :
    match verdict sub with
    | .headless => Segs.subpathContour mono sub = none
    | .closed => ∃ es, Segs.subpathContour mono sub = some (es, .cycle)
    | .unclosed a b => a ≠ b ∧ ∃ es, Segs.subpathContour mono sub = some (es, .dangling) ∧ es.head?.map Prod.fst = some a ∧ es.getLast?.map Prod.snd = some b := by
  cases sub with
  | nil => exact ⟨[], by simp [Segs.subpathContour, Segs.kurboSegments, Segs.closedLoop]⟩
  | cons el els =>
    have hmv' : ∀ p, .moveTo p ∉ els := hmv
    -- the contour if the curves are known
    have key : ∀ (p : Segs.Pt ℝ) gs, target el = some p → Segs.kurboSegments none (el :: els) = some gs → Segs.Leads p (pen p p els) (gs.flatMap (Segs.segEdges mono)) →
        match verdict (el :: els) with
        | .headless => Segs.subpathContour mono (el :: els) = none
        | .closed => ∃ es, Segs.subpathContour mono (el :: els) = some (es, .cycle)
        | .unclosed a b => a ≠ b ∧ ∃ es, Segs.subpathContour mono (el :: els) = some (es, .dangling) ∧ es.head?.map Prod.fst = some a ∧
            es.getLast?.map Prod.snd = some b := by
      intro p gs ht hk hl
      have hc : Segs.subpathContour mono (el :: els) = some (gs.flatMap (Segs.segEdges mono),
          if Segs.closedLoop (gs.flatMap (Segs.segEdges mono)) then .cycle else .dangling) := by
        simp [Segs.subpathContour, hk]
      rw [hc]
      simp only [verdict, ht]
      generalize gs.flatMap (Segs.segEdges mono) = es at hl
      by_cases hne : es = []
      · subst hne
        have hp : p = pen p p els := hl
        rw [if_pos hp]
        exact ⟨[], by simp [Segs.closedLoop]⟩
      · obtain ⟨e1, e2⟩ := hl.ends hne
        obtain ⟨x, hx, hx'⟩ := Option.map_eq_some_iff.1 e1
        obtain ⟨y, hy, hy'⟩ := Option.map_eq_some_iff.1 e2
        have hloop : Segs.closedLoop es = decide (p = pen p p els) := by
          simp only [Segs.closedLoop, hx, hy]
          rw [hx', hy']
        rw [hloop]
        by_cases hp : p = pen p p els
        · rw [if_pos hp]
          exact ⟨es, by rw [if_pos (by simpa using hp)]⟩
        · rw [if_neg hp]
          exact ⟨hp, es, by rw [if_neg (by simpa using hp)], e1, e2⟩
    have first : ∀ p, target el = some p → (∀ q, el ≠ .moveTo q) → Segs.kurboSegments none (el :: els) = Segs.kurboSegments (some (p, p)) (el :: els) →
        pen p p (el :: els) = pen p p els → ∃ gs, Segs.kurboSegments none (el :: els) = some gs ∧ Segs.Leads p (pen p p els) (gs.flatMap (Segs.segEdges mono)) := by
      intro p ht hel hk hpen
      obtain ⟨gs, h1, h2⟩ := kurbo_pen (el :: els) (by
        intro q hq
        rcases List.mem_cons.1 hq with hq | hq
        · exact hel q hq.symm
        · exact hmv' q hq) p p
      rw [hpen] at h2
      exact ⟨gs, by rw [hk, h1], h2⟩
    cases el with
    | moveTo p =>
      obtain ⟨gs, h1, h2⟩ := kurbo_pen els hmv' p p
      exact key p gs rfl (by simp [Segs.kurboSegments, Segs.kurboStep, h1]) h2
    | lineTo p =>
      obtain ⟨gs, h1, h2⟩ := first p rfl (by simp) rfl rfl
      exact key p gs rfl h1 h2
    | quadTo q p =>
      obtain ⟨gs, h1, h2⟩ := first p rfl (by simp) rfl rfl
      exact key p gs rfl h1 h2
    | curveTo q r p =>
      obtain ⟨gs, h1, h2⟩ := first p rfl (by simp) rfl rfl
      exact key p gs rfl h1 h2
    | closePath => simp [verdict, target, Segs.subpathContour, Segs.kurboSegments, Segs.kurboStep]

theorem addSubpath_verdict {s : Segments ℝ} (hs : Segs.Lens s) (sub : List (PathEl ℝ)) (hmv : ∀ p, .moveTo p ∉ sub.tail) :
    match verdict sub with
    | .headless => s.addSubpath 0 1 mono true sub = .panic
    | .closed => ∃ s', s.addSubpath 0 1 mono true sub = .ok s' ∧ Segs.Lens s'
    | .unclosed a b => a ≠ b ∧ ∃ s', s.addSubpath 0 1 mono true sub = .err a b s' := by
  have hr := Segs.subpath_refines 0 1 mono true s hs sub
  have hc := contour_verdict sub hmv
  cases hv : verdict sub with
  | headless =>
    rw [hv] at hc
    dsimp only at hc ⊢
    cases ha : s.addSubpath 0 1 mono true sub with
    | panic => rfl
    | ok s' =>
      rw [ha] at hr
      obtain ⟨es, k, h1, _⟩ := hr
      rw [hc] at h1; simp at h1
    | err a b s' =>
      rw [ha] at hr
      obtain ⟨_, es, h1, _⟩ := hr
      rw [hc] at h1; simp at h1
  | closed =>
    rw [hv] at hc
    dsimp only at hc ⊢
    obtain ⟨es, hc⟩ := hc
    cases ha : s.addSubpath 0 1 mono true sub with
    | panic =>
      rw [ha] at hr
      dsimp only at hr
      rw [hc] at hr; simp at hr
    | ok s' =>
      rw [ha] at hr
      obtain ⟨_, _, _, _, h3, _⟩ := hr
      exact ⟨s', rfl, h3.lens hs⟩
    | err a b s' =>
      rw [ha] at hr
      obtain ⟨_, es, h1, _⟩ := hr
      rw [hc] at h1; simp at h1
  | unclosed a b =>
    rw [hv] at hc
    dsimp only at hc ⊢
    obtain ⟨hab, es, hc, h1, h2⟩ := hc
    refine ⟨hab, ?_⟩
    cases ha : s.addSubpath 0 1 mono true sub with
    | panic =>
      rw [ha] at hr
      dsimp only at hr
      rw [hc] at hr; simp at hr
    | ok s' =>
      rw [ha] at hr
      obtain ⟨es', k, g1, g2, _⟩ := hr
      rw [hc, Option.some.injEq, Prod.mk.injEq] at g1
      obtain ⟨rfl, rfl⟩ := g1
      rcases g2 rfl with g | g
      · subst g; simp at h1
      · simp at g
    | err a' b' s' =>
      rw [ha] at hr
      obtain ⟨_, es', g1, _, _, _, g2, g3, _⟩ := hr
      rw [hc, Option.some.injEq, Prod.mk.injEq] at g1
      obtain ⟨rfl, -⟩ := g1
      rw [h1, Option.some.injEq] at g2
      rw [h2, Option.some.injEq] at g3
      subst g2 g3
      exact ⟨s', rfl⟩

theorem addSubpaths_verdict (subs : List (List (PathEl ℝ))) (hmv : ∀ sub ∈ subs, ∀ p, .moveTo p ∉ sub.tail) : ∀ {s : Segments ℝ}, Segs.Lens s →
    match firstBad (subs.map verdict) with
    | .headless => s.addSubpaths 0 1 mono true subs = .panic
    | .closed => ∃ s', s.addSubpaths 0 1 mono true subs = .ok s' ∧ Segs.Lens s'
    | .unclosed a b => a ≠ b ∧ ∃ s', s.addSubpaths 0 1 mono true subs = .err a b s' := by
  induction subs with
  | nil => intro s hs; exact ⟨s, rfl, hs⟩
  | cons sub subs ih =>
    intro s hs
    have h1 := addSubpath_verdict hs sub (hmv sub List.mem_cons_self)
    have ih' := @ih (fun x hx => hmv x (List.mem_cons_of_mem _ hx))
    rw [List.map_cons]
    cases hv : verdict sub with
    | headless =>
      rw [hv] at h1
      dsimp only at h1
      simp only [firstBad, Segments.addSubpaths, h1]
    | closed =>
      rw [hv] at h1
      obtain ⟨s', h1, hs'⟩ := h1
      simp only [firstBad, Segments.addSubpaths, h1]
      exact ih' hs'
    | unclosed a b =>
      rw [hv] at h1
      obtain ⟨hab, s', h1⟩ := h1
      simp only [firstBad, Segments.addSubpaths, h1]
      exact ⟨hab, s', rfl⟩

theorem firstBad_append (us vs : List Verdict) : firstBad (us ++ vs) = match firstBad us with | .closed => firstBad vs | v => v := by
  induction us with
  | nil => rfl
  | cons u us ih => cases u <;> simp [firstBad, ih]

variable {T : Type}

theorem addPaths_verdict (ps : List (List (PathEl ℝ) × T)) : ∀ {s : Segments ℝ} (tags : List T), Segs.Lens s →
    match firstBad ((ps.flatMap fun p => Segs.subpaths p.1).map verdict) with
    | .headless => addPaths s tags ps = .panic
    | .closed => ∃ s' tags', addPaths s tags ps = .ok s' tags'
    | .unclosed a b => a ≠ b ∧ addPaths s tags ps = .err a b := by
  induction ps with
  | nil => intro s tags _; exact ⟨s, tags, rfl⟩
  | cons p ps ih =>
    obtain ⟨p, t⟩ := p
    intro s tags hs
    have h1 := addSubpaths_verdict (Segs.subpaths p) (fun sub hsub => ((Segs.C48_subpaths p).2.1 sub hsub).2) hs
    rw [List.flatMap_cons, List.map_append, firstBad_append]
    cases hv : firstBad ((Segs.subpaths p).map verdict) with
    | headless =>
      rw [hv] at h1
      dsimp only at h1 ⊢
      simp only [addPaths, h1]
    | closed =>
      rw [hv] at h1
      obtain ⟨s', h1, hs'⟩ := h1
      simp only [addPaths, h1]
      exact ih _ hs'
    | unclosed a b =>
      rw [hv] at h1
      obtain ⟨hab, s', h1⟩ := h1
      refine ⟨hab, ?_⟩
      simp only [addPaths, h1]

/-- **C82.** Paths are accepted if and only if every subpath is closed. The error names the two ends of the first subpath that is not closed;
a subpath that begins with `ClosePath` makes the program panic, if no earlier subpath is in error. -/
theorem C82_accept (ps : List (List (PathEl ℝ) × T)) :
    match firstBad ((ps.flatMap fun p => Segs.subpaths p.1).map verdict) with
    | .headless => buildPaths ps = .panic
    | .closed => ∃ s tags, buildPaths ps = .ok s tags
    | .unclosed a b => a ≠ b ∧ buildPaths ps = .err a b := by
  have h := addPaths_verdict ps ([] : List T) Segs.lens_empty
  unfold buildPaths
  cases hv : firstBad ((ps.flatMap fun p => Segs.subpaths p.1).map verdict) with
  | headless => rw [hv] at h; dsimp only at h ⊢; rw [h]
  | closed =>
    rw [hv] at h
    obtain ⟨s, tags, h⟩ := h
    rw [h]
    exact ⟨_, _, rfl⟩
  | unclosed a b =>
    rw [hv] at h
    obtain ⟨hab, h⟩ := h
    rw [h]
    exact ⟨hab, rfl⟩

theorem firstBad_closed {vs : List Verdict} (h : ∀ v ∈ vs, v = .closed) : firstBad vs = .closed := by
  induction vs with
  | nil => rfl
  | cons v vs ih =>
    rw [h v List.mem_cons_self]
    exact ih fun w hw => h w (List.mem_cons_of_mem _ hw)

/-- **C82.** If all subpaths are closed the paths are accepted. -/
theorem C82_closed {ps : List (List (PathEl ℝ) × T)} (h : ∀ p ∈ ps, ∀ sub ∈ Segs.subpaths p.1, verdict sub = .closed) : ∃ s tags, buildPaths ps = .ok s tags := by
  have := C82_accept ps
  rw [firstBad_closed] at this
  · exact this
  · intro v hv
    obtain ⟨sub, hs, rfl⟩ := List.mem_map.1 hv
    obtain ⟨p, hp, hs⟩ := List.mem_flatMap.1 hs
    exact h p hp sub hs

/-- **C82.** A boolean operation on paths fails with an error exactly if some subpath is not closed and none before it begins with `ClosePath`. -/
theorem C82_binary_op (cfg : Cfg) (a b : List (PathEl ℝ)) (rule : BinOp.FillRule) (op : BinOp.Op) (fuel : Nat) (p q : Segs.Pt ℝ) :
    binaryOp cfg a b rule op fuel = .err p q ↔ firstBad ((Segs.subpaths a ++ Segs.subpaths b).map verdict) = .unclosed p q := by
  have h := C82_accept (tagged a b)
  have e : ((tagged a b).flatMap fun p => Segs.subpaths p.1) = Segs.subpaths a ++ Segs.subpaths b := by simp [tagged]
  rw [e] at h
  have hfin : ∀ s tags, finish cfg rule op s tags fuel ≠ .err p q := by
    intro s tags
    unfold finish
    cases fromSegments cfg BinOp.BinaryWinding.single s tags fuel fuel with
    | none => simp
    | some t =>
      dsimp only
      cases Contours.contours t (BinOp.inside rule op) fuel <;> simp
  unfold binaryOp
  cases hv : firstBad ((Segs.subpaths a ++ Segs.subpaths b).map verdict) with
  | headless =>
    rw [hv] at h; dsimp only at h
    rw [h]; simp
  | closed =>
    rw [hv] at h
    obtain ⟨s, tags, h⟩ := h
    rw [h]
    dsimp only
    exact iff_of_false (hfin s tags) (by simp)
  | unclosed a' b' =>
    rw [hv] at h
    obtain ⟨_, h⟩ := h
    rw [h]
    simp

/-! Non-vacuity: a triangle with a `ClosePath`, one whose last line goes back, an open path and a headless one. -/

section
open Segs (subpaths takeSubpath)

example : ∃ s tags, buildPaths [([.moveTo ⟨0, 0⟩, .lineTo ⟨1, 0⟩, .quadTo ⟨1, 1⟩ ⟨0, 1⟩, .closePath, .moveTo ⟨5, 5⟩, .lineTo ⟨6, 7⟩, .lineTo ⟨5, 5⟩], true)] = .ok s tags := by
  refine C82_closed ?_
  simp [subpaths, takeSubpath, verdict, target, pen]

example : buildPaths [([.moveTo ⟨0, 0⟩, .lineTo ⟨1, 0⟩, .closePath, .lineTo ⟨2, 3⟩], true)] = .err ⟨0, 0⟩ ⟨2, 3⟩ := by
  have h := C82_accept [([.moveTo ⟨0, 0⟩, .lineTo ⟨1, 0⟩, .closePath, .lineTo ⟨2, 3⟩], true)]
  simp [subpaths, takeSubpath, verdict, target, pen, firstBad] at h
  exact h

example : buildPaths [([.closePath, .lineTo ⟨2, 3⟩], true)] = .panic := by
  have h := C82_accept [([.closePath, .lineTo ⟨2, 3⟩], true)]
  simp [subpaths, takeSubpath, verdict, target, firstBad] at h
  exact h

end

end Verif.Full
