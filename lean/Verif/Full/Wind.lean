import Verif.Full.Env
import Verif.Sweep.Across

/-! # The winding numbers of the sweep are those of the input -/

namespace Verif.Full
open Verif.Segs (Segments PathSeg PathEl Origin)
set_option linter.unusedSectionVars false

/-! ## Specification -/

/-- How an oriented segment crosses the ray that leaves `(x, z)` to the left: `1` if it crosses it downwards (in the direction of the sweep), `-1` if upwards, `0` if not
at all. (The lower end of a segment does not belong to it.) -/
noncomputable def cross (g : Segs.Seg ℝ) (x z : ℝ) : ℤ :=
  if g.start.y ≤ z ∧ z < g.stop.y ∧ atY g z < x then 1
  else if g.stop.y ≤ z ∧ z < g.start.y ∧ atY g.rev z < x then -1
  else 0

/-- The segments of all subpaths of a path. -/
noncomputable def pathSegs (p : List (PathEl ℝ)) : Option (List (PathSeg ℝ)) := (Segs.allSome (Segs.kurboSegments none) (Segs.subpaths p)).map List.flatten

/-- The winding number of a list of path segments around a point. -/
noncomputable def windSegs (gs : List (PathSeg ℝ)) (x z : ℝ) : ℤ := ((gs.flatMap (Segs.segOrigins 0 1 mono)).map fun o => cross o.curve x z).sum

/-- The winding number of a path around a point. -/
noncomputable def windPath (p : List (PathEl ℝ)) (x z : ℝ) : ℤ := windSegs ((pathSegs p).getD []) x z

/-- The winding number of a closed polyline around a point. -/
noncomputable def windPolyline (ps : List (Segs.Pt ℝ)) (x z : ℝ) : ℤ := ((Segs.closedEdges ps).map fun e => cross (.line e.1 e.2) x z).sum

/-- The point `(x, z)` keeps the distance `eps` from segment `a`: the part of it that is at most `eps` above or below is at least `eps` to the left or at least
`eps` to the right. -/
def Clear (eps : ℝ) (s : Segments ℝ) (x z : ℝ) (a : Nat) : Prop :=
  (∀ y, |y - z| ≤ eps → (segAt s a).start.y ≤ y → y ≤ (segAt s a).stop.y → (segAt s a).atY y ≤ x - eps) ∨
  (∀ y, |y - z| ≤ eps → (segAt s a).start.y ≤ y → y ≤ (segAt s a).stop.y → x + eps ≤ (segAt s a).atY y)

/-! ## The contributions of the arena -/

variable {T W : Type} [AddCommGroup W]

open Classical in
/-- The sum of the contributions of the segments that cross the ray. -/
noncomputable def windArena (cfg : Cfg) (s : Segments ℝ) (tags : List T) (single : T → Bool → W) (x z : ℝ) : W :=
  (((List.range s.len).filter fun a => decide ((env cfg s).startY a ≤ z ∧ z < (env cfg s).endY a ∧ (env cfg s).atY a z < x)).map
    fun a => contribution single tags a ((env cfg s).orient a)).sum

/-- The arena has the given curves with the given tags. -/
structure Made (s : Segments ℝ) (tags : List T) (os : List (Origin ℝ × T)) : Prop where
  adds : Segs.Adds Segments.empty s (os.map Prod.fst)
  tags : tags = os.map Prod.snd

theorem made_len {s : Segments ℝ} {tags : List T} {os : List (Origin ℝ × T)} (h : Made s tags os) : s.len = os.length := by
  obtain ⟨its, e1, e2, _⟩ := h.adds
  unfold Segments.len
  rw [e2, List.length_append, List.length_map, ← List.length_map (f := Segs.Item.origin), e1]
  simp [Segments.empty]

theorem made_get {s : Segments ℝ} {tags : List T} {os : List (Origin ℝ × T)} (h : Made s tags os) {i : Nat} {o : Origin ℝ} {t : T}
    (hi : os[i]? = some (o, t)) : ∃ g b, s.segs[i]? = some g ∧ s.orientation[i]? = some b ∧ o.curve = (if b then g else g.rev) ∧ tags[i]? = some t := by
  obtain ⟨its, e1, e2, e3, _⟩ := h.adds
  have h1 : (its.map Segs.Item.origin)[i]? = some o := by rw [e1, List.getElem?_map, hi]; rfl
  rw [List.getElem?_map] at h1
  obtain ⟨it, h2, rfl⟩ := Option.map_eq_some_iff.1 h1
  refine ⟨it.seg, it.orient, ?_, ?_, rfl, ?_⟩
  · rw [e2]; simp [Segments.empty, h2]
  · rw [e3]; simp [Segments.empty, h2]
  · rw [h.tags, List.getElem?_map, hi]; rfl

theorem rev_start (g : Segs.Seg ℝ) : g.rev.start = g.stop := by cases g <;> rfl
theorem rev_stop (g : Segs.Seg ℝ) : g.rev.stop = g.start := by cases g <;> rfl
theorem rev_rev (g : Segs.Seg ℝ) : g.rev.rev = g := by cases g <;> rfl

theorem cross_fwd {g : Segs.Seg ℝ} (h : g.start.y ≤ g.stop.y) (x z : ℝ) :
    cross g x z = if g.start.y ≤ z ∧ z < g.stop.y ∧ atY g z < x then 1 else 0 := by
  unfold cross
  split
  · rfl
  · rw [if_neg]
    rintro ⟨h1, h2, _⟩
    linarith

theorem cross_rev {g : Segs.Seg ℝ} (h : g.start.y ≤ g.stop.y) (x z : ℝ) :
    cross g.rev x z = if g.start.y ≤ z ∧ z < g.stop.y ∧ atY g z < x then -1 else 0 := by
  unfold cross
  rw [rev_start, rev_stop, rev_rev, if_neg]
  rintro ⟨h1, h2, _⟩
  linarith

/-- The contributions of the arena that cross the ray are the crossings of its curves, counted with the contribution of their tag. -/
theorem windArena_eq {cfg : Cfg} {s : Segments ℝ} {tags : List T} {os : List (Origin ℝ × T)} (h : Made s tags os) (ha : Arena s tags)
    (single : T → Bool → W) (hn : ∀ t b, single t (!b) = - single t b) (x z : ℝ) :
    windArena cfg s tags single x z = (os.map fun o => cross o.1.curve x z • single o.2 true).sum := by
  classical
  have key : ∀ i (hi : i < os.length), cross os[i].1.curve x z • single os[i].2 true =
      if (env cfg s).startY i ≤ z ∧ z < (env cfg s).endY i ∧ (env cfg s).atY i z < x then contribution single tags i ((env cfg s).orient i) else 0 := by
    intro i hi
    obtain ⟨g, b, h1, h2, h3, h4⟩ := made_get h (o := os[i].1) (t := os[i].2) (List.getElem?_eq_getElem hi)
    have hle := (ha.fine g (List.mem_of_getElem? h1)).le
    have ho : (env cfg s).orient i = b := by change (s.orientation[i]?).getD true = b; rw [h2]; rfl
    have hat : (env cfg s).atY i z = atY g z := by change (segAt s i).atY z = _; rw [segAt_eq h1]; rfl
    rw [startY_eq h1, endY_eq h1, hat, ho, h3]
    unfold contribution
    rw [h4]
    cases b with
    | true =>
      rw [if_pos rfl, cross_fwd hle]
      split <;> simp
    | false =>
      rw [if_neg (by simp), cross_rev hle]
      have := hn os[i].2 true
      rw [Bool.not_true] at this
      split <;> simp [this]
  have hsum : ∀ (l : List Nat) (P : Nat → Prop) [DecidablePred P] (f : Nat → W), ((l.filter fun a => decide (P a)).map f).sum = (l.map fun a => if P a then f a else 0).sum := by
    intro l P _ f
    induction l with
    | nil => rfl
    | cons a l ih =>
      by_cases hp : P a
      · rw [List.filter_cons_of_pos (by simpa using hp), List.map_cons, List.map_cons, List.sum_cons, List.sum_cons, ih, if_pos hp]
      · rw [List.filter_cons_of_neg (by simpa using hp), List.map_cons, List.sum_cons, ih, if_neg hp, zero_add]
  unfold windArena
  rw [hsum, made_len h]
  congr 1
  apply List.ext_getElem
  · simp
  · intro i h1 h2
    have hi : i < os.length := by simpa using h2
    simp only [List.getElem_map, List.getElem_range]
    exact (key i hi).symm

theorem made_empty : Made (T := T) Segments.empty [] [] := ⟨Segs.Adds.nil _, rfl⟩

theorem Made.add {s s' : Segments ℝ} {tags : List T} {os : List (Origin ℝ × T)} (h : Made s tags os) {ps : List (Origin ℝ)} (hs : Segs.Adds s s' ps) (t : T) :
    Made s' (resize tags s'.len t) (os ++ ps.map fun p => (p, t)) := by
  have hl : tags.length = os.length := by rw [h.tags]; simp
  have h2 : Segs.Adds Segments.empty s' ((os ++ ps.map fun p => (p, t)).map Prod.fst) := by
    have : (os ++ ps.map fun p => (p, t)).map Prod.fst = os.map Prod.fst ++ ps := by simp [Function.comp_def]
    rw [this]; exact h.adds.comp hs
  have hlen : s'.len = os.length + ps.length := by
    have : Made s' ((os ++ ps.map fun p => (p, t)).map Prod.snd) (os ++ ps.map fun p => (p, t)) := ⟨h2, rfl⟩
    rw [made_len this]; simp
  refine ⟨h2, ?_⟩
  rw [resize_append _ _ _ (by omega), hlen, hl, h.tags, List.map_append, List.map_map]
  congr 1
  rw [Nat.add_sub_cancel_left, eq_comm, List.eq_replicate_iff]
  simp

/-- The curves of a list of paths with their tags. -/
noncomputable def pathOrigins (ps : List (List (PathEl ℝ) × T)) : List (Origin ℝ × T) :=
  ps.flatMap fun p => (((pathSegs p.1).getD []).flatMap (Segs.segOrigins 0 1 mono)).map fun o => (o, p.2)

theorem addPaths_made (ps : List (List (PathEl ℝ) × T)) : ∀ {s : Segments ℝ} {tags : List T} {os : List (Origin ℝ × T)}, Made s tags os →
    ∀ {s' tags'}, addPaths s tags ps = .ok s' tags' → Made s' tags' (os ++ pathOrigins ps) := by
  induction ps with
  | nil =>
    intro s tags os h s' tags' hb
    simp only [addPaths] at hb
    injection hb with h1 h2
    subst h1 h2
    simpa [pathOrigins] using h
  | cons p ps ih =>
    obtain ⟨p, t⟩ := p
    intro s tags os h s' tags' hb
    simp only [addPaths] at hb
    cases hc : s.addSubpaths 0 1 mono true (Segs.subpaths p) with
    | err a b s1 => rw [hc] at hb; simp at hb
    | panic => rw [hc] at hb; simp at hb
    | ok s1 =>
      rw [hc] at hb
      simp only at hb
      obtain ⟨gss, g1, g2⟩ := Segs.adds_subpaths 0 1 mono true (Segs.subpaths p) s s1 hc
      have := ih (h.add g2 t) hb
      have e : pathOrigins ((p, t) :: ps) = (gss.flatten.flatMap (Segs.segOrigins 0 1 mono)).map (fun o => (o, t)) ++ pathOrigins ps := by
        simp [pathOrigins, pathSegs, g1]
      rw [e, ← List.append_assoc]
      exact this

theorem buildPaths_made {ps : List (List (PathEl ℝ) × T)} {s : Segments ℝ} {tags : List T} (h : buildPaths ps = .ok s tags) : Made s tags (pathOrigins ps) := by
  unfold buildPaths at h
  cases hb : addPaths Segments.empty [] ps with
  | err a b => rw [hb] at h; simp at h
  | panic => rw [hb] at h; simp at h
  | ok s1 tags1 =>
    rw [hb] at h
    simp only at h
    injection h with h1 h2
    subst h1 h2
    have := addPaths_made ps made_empty hb
    rw [List.nil_append] at this
    exact ⟨this.adds.of_eq rfl rfl rfl rfl, this.tags⟩

theorem polylines_made (pss : List (List (Segs.Pt ℝ))) : ∀ (s : Segments ℝ),
    Segs.Adds s (pss.foldl (Segments.addPolylineRaw 0 1) s) (pss.flatMap fun ps => (Segs.closedEdges ps).map (Segs.edgeOrigin 0 1)) := by
  induction pss with
  | nil => intro s; exact Segs.Adds.nil s
  | cons ps pss ih => intro s; exact (Segs.adds_raw 0 1 s ps).comp (ih _)

theorem addPolylines_made {s : Segments ℝ} {tags : List T} {os : List (Origin ℝ × T)} (h : Made s tags os) (pss : List (List (Segs.Pt ℝ))) (t : T) :
    Made (s.addClosedPolylines 0 1 atY pss) (resize tags (s.addClosedPolylines 0 1 atY pss).len t)
      (os ++ (pss.flatMap fun ps => (Segs.closedEdges ps).map (Segs.edgeOrigin 0 1)).map fun o => (o, t)) :=
  h.add (s' := s.addClosedPolylines 0 1 atY pss) ((polylines_made pss s).of_eq rfl rfl rfl rfl) t

theorem buildPolylines_made (as bs : List (List (Segs.Pt ℝ))) : Made (buildPolylines as bs).1 (buildPolylines as bs).2
    (((as.flatMap fun ps => (Segs.closedEdges ps).map (Segs.edgeOrigin 0 1)).map fun o => (o, true)) ++
      (bs.flatMap fun ps => (Segs.closedEdges ps).map (Segs.edgeOrigin 0 1)).map fun o => (o, false)) := by
  have := addPolylines_made (addPolylines_made made_empty as true) bs false
  rw [List.nil_append] at this
  exact this

theorem sum_smul {α : Type} (l : List α) (f : α → ℤ) (w : W) : (l.map fun a => f a • w).sum = (l.map f).sum • w := by
  induction l with
  | nil => simp
  | cons a l ih => simp [ih, add_smul]

/-- The sum of the contributions of paths that cross the ray. -/
theorem windArena_paths {cfg : Cfg} {ps : List (List (PathEl ℝ) × T)} {s : Segments ℝ} {tags : List T} (h : buildPaths ps = .ok s tags)
    (single : T → Bool → W) (hn : ∀ t b, single t (!b) = - single t b) (x z : ℝ) :
    windArena cfg s tags single x z = (ps.map fun p => windPath p.1 x z • single p.2 true).sum := by
  rw [windArena_eq (buildPaths_made h) (buildPaths_arena h) single hn]
  clear h
  unfold pathOrigins
  induction ps with
  | nil => rfl
  | cons q ps ih =>
    rw [List.flatMap_cons, List.map_append, List.sum_append, ih, List.map_cons, List.sum_cons, List.map_map]
    congr 1
    exact sum_smul (((pathSegs q.1).getD []).flatMap (Segs.segOrigins 0 1 mono)) (fun o : Origin ℝ => cross o.curve x z) (single q.2 true)

theorem windArena_polylines {cfg : Cfg} (as bs : List (List (Segs.Pt ℝ))) (single : Bool → Bool → W) (hn : ∀ t b, single t (!b) = - single t b) (x z : ℝ) :
    windArena cfg (buildPolylines as bs).1 (buildPolylines as bs).2 single x z =
      (as.map fun ps => windPolyline ps x z).sum • single true true + (bs.map fun ps => windPolyline ps x z).sum • single false true := by
  rw [windArena_eq (buildPolylines_made as bs) (buildPolylines_arena as bs) single hn]
  have key : ∀ (pss : List (List (Segs.Pt ℝ))) (t : Bool), (((pss.flatMap fun ps => (Segs.closedEdges ps).map (Segs.edgeOrigin 0 1)).map fun o => (o, t)).map
      fun o : Origin ℝ × Bool => cross o.1.curve x z • single o.2 true).sum = (pss.map fun ps => windPolyline ps x z).sum • single t true := by
    intro pss t
    rw [List.map_map]
    change ((pss.flatMap fun ps => (Segs.closedEdges ps).map (Segs.edgeOrigin 0 1)).map fun o => cross o.curve x z • single t true).sum = _
    rw [sum_smul]
    congr 1
    induction pss with
    | nil => rfl
    | cons ps pss ih =>
      rw [List.flatMap_cons, List.map_append, List.sum_append, ih, List.map_cons, List.sum_cons, List.map_map]
      rfl
  rw [List.map_append, List.sum_append, key, key]

/-! ## The gap at a point -/

/-- A list in which whatever satisfies `P` comes first splits there. -/
theorem split_sorted {α : Type} (P : α → Prop) [DecidablePred P] : ∀ l : List α, l.Pairwise (fun a b => P b → P a) →
    ∃ l1 l2, l = l1 ++ l2 ∧ (∀ a ∈ l1, P a) ∧ ∀ a ∈ l2, ¬ P a := by
  intro l
  induction l with
  | nil => intro _; exact ⟨[], [], rfl, by simp, by simp⟩
  | cons a l ih =>
    intro h
    obtain ⟨h1, h2⟩ := List.pairwise_cons.1 h
    by_cases ha : P a
    · obtain ⟨l1, l2, rfl, h3, h4⟩ := ih h2
      exact ⟨a :: l1, l2, rfl, by simpa using ⟨ha, h3⟩, h4⟩
    · exact ⟨[], a :: l, rfl, by simp, by simpa using ⟨ha, fun b hb hp => ha (h1 b hb hp)⟩⟩

variable [DecidableEq W]

/-- The state of affairs at a point `(x, z)` in the result `t`: the output segments that cross the height `z`, in the order of the scan line, fall into those
to the left of the point and those to its right; and the winding number recorded between the two groups is `w`. -/
structure GapAt (s : Segments ℝ) (t : Topo.Topo ℝ W) (m : Scan.Maps ℝ) (x z : ℝ) (w : W) (l1 l2 : List Nat) : Prop where
  nodup : (l1 ++ l2).Nodup
  alive : ∀ o, o ∈ l1 ++ l2 ↔ Scan.AliveAt t o z
  order : ∀ a o b, l1 ++ l2 = a ++ o :: b → Scan.neighborAfter (m.west o) z = a.getLast? ∧ Scan.neighborAfter (m.east o) z = b.head?
  left : ∀ o ∈ l1, (segAt s (t.origSeg o)).atY z < x
  right : ∀ o ∈ l2, x ≤ (segAt s (t.origSeg o)).atY z
  along : ∀ a o b, l1 ++ l2 = a ++ o :: b → (t.winding o).cw = match a.getLast? with | none => 0 | some o' => (t.winding o').ccw
  west : ∀ o, l1.getLast? = some o → (t.winding o).ccw = w
  east : ∀ o, l2.head? = some o → (t.winding o).cw = w
  outer : l1 = [] ∨ l2 = [] → w = 0

/-- On the last line that is not below the height `z`, whatever is to the left of the point `(x, z)` comes first. -/
def SplitsAt (s : Segments ℝ) (st : Sweep.State ℝ) (x z : ℝ) : Prop :=
  (Sweep.newSegs st.line).Pairwise fun a b => (segAt s b).atY z < x → (segAt s a).atY z < x

theorem gap_core {cfg : Cfg} {s : Segments ℝ} {tags : List T} {single : T → Bool → W} {fuel2 fuel : Nat} {t : Topo.Topo ℝ W} (ha : Arena s tags)
    (hV : (env cfg s).Valid (contribution single tags) fuel2) (h : sweep cfg single s tags fuel2 fuel = some t) :
    ∃ m, Scan.buildScanLineOrders t = some m ∧
      ∀ z : ℝ, ∃ (st : Sweep.State ℝ) (L : List Nat), (st = Sweep.State.new (env cfg s) ∨ (Sweep.Reached (env cfg s) fuel2 st ∧ st.y ≤ z)) ∧
        Sweep.LastBefore (env cfg s) fuel2 z st ∧ L.map t.origSeg = Sweep.newSegs st.line ∧ (∀ o, o ∈ L ↔ Scan.AliveAt t o z) ∧
        (∀ a, a ∈ Sweep.newSegs st.line ↔ a < s.len ∧ (segAt s a).start.y ≤ z ∧ z < (segAt s a).stop.y) ∧
        ∀ x, SplitsAt s st x z → ∃ l1 l2, L = l1 ++ l2 ∧ GapAt s t m x z (windArena cfg s tags single x z) l1 l2 := by
  classical
  obtain ⟨m, hm, hz⟩ := Sweep.across hV h
  refine ⟨m, hm, fun z => ?_⟩
  obtain ⟨st, L, g1, g2, g3, g4, g5, g6, g7, g8, g9, g10⟩ := hz z
  have hcr : ∀ a, a ∈ L.map t.origSeg ↔ a < s.len ∧ (segAt s a).start.y ≤ z ∧ z < (segAt s a).stop.y := by
    intro a; rw [g8, mem_segs ha]; rfl
  refine ⟨st, L, g1, g2, g6, g4, by rw [← g6]; exact hcr, ?_⟩
  intro x hw
  unfold SplitsAt at hw
  rw [← g6] at hw
  have hpw : L.Pairwise fun o o' => (segAt s (t.origSeg o')).atY z < x → (segAt s (t.origSeg o)).atY z < x := List.pairwise_map.1 hw
  obtain ⟨l1, l2, rfl, k1, k2⟩ := split_sorted (fun o => (segAt s (t.origSeg o)).atY z < x) L hpw
  have hmem1 : ∀ o ∈ l1, t.origSeg o ∈ (l1 ++ l2).map t.origSeg := fun o ho => List.mem_map.2 ⟨o, by simp [ho], rfl⟩
  have hmem2 : ∀ o ∈ l2, t.origSeg o ∈ (l1 ++ l2).map t.origSeg := fun o ho => List.mem_map.2 ⟨o, by simp [ho], rfl⟩
  -- the sum over the left part
  have hsum : (l1.map fun i => contribution single tags (t.origSeg i) ((env cfg s).orient (t.origSeg i))).sum = windArena cfg s tags single x z := by
    have hperm : (l1.map t.origSeg).Perm ((List.range s.len).filter fun a =>
        decide ((env cfg s).startY a ≤ z ∧ z < (env cfg s).endY a ∧ (env cfg s).atY a z < x)) := by
      rw [List.perm_ext_iff_of_nodup]
      · intro a
        rw [List.mem_filter, List.mem_range, decide_eq_true_eq]
        constructor
        · intro hm
          obtain ⟨o, ho, rfl⟩ := List.mem_map.1 hm
          obtain ⟨h1, h2, h3⟩ := (hcr _).1 (hmem1 o ho)
          exact ⟨h1, h2, h3, k1 o ho⟩
        · rintro ⟨h1, h2, h3, h4⟩
          obtain ⟨o, ho, rfl⟩ := List.mem_map.1 ((hcr a).2 ⟨h1, h2, h3⟩)
          rcases List.mem_append.1 ho with ho | ho
          · exact List.mem_map.2 ⟨o, ho, rfl⟩
          · exact absurd h4 (k2 o ho)
      · rw [List.map_append] at g7
        exact (List.nodup_append.1 g7).1
      · exact List.Nodup.filter _ List.nodup_range
    unfold windArena
    rw [← (hperm.map _).sum_eq, List.map_map]
    rfl
  refine ⟨l1, l2, rfl, g3, g4, g5, ?_, ?_, ?_, ?_, ?_, ?_⟩
  · intro o ho
    exact k1 o ho
  · intro o ho
    exact not_lt.1 (k2 o ho)
  · intro a o b e
    rw [(g9 a o b e).1]
    cases hl : a.getLast? with
    | none =>
      have : a = [] := by simpa using hl
      subst this; rfl
    | some o' =>
      obtain ⟨a', rfl⟩ : ∃ a', a = a' ++ [o'] := by rw [List.getLast?_eq_some_iff] at hl; exact hl
      rw [List.append_assoc] at e
      dsimp only
      rw [(g9 a' o' (o :: b) e).2]
  · intro o ho
    obtain ⟨l0, rfl⟩ : ∃ l0, l1 = l0 ++ [o] := by
      rw [List.getLast?_eq_some_iff] at ho; exact ho
    rw [(g9 l0 o l2 (by simp)).2, hsum]
  · intro o ho
    obtain ⟨l0, rfl⟩ : ∃ l0, l2 = o :: l0 := by
      cases l2 with
      | nil => simp at ho
      | cons b l0 => obtain rfl : b = o := by simpa using ho
                     exact ⟨l0, rfl⟩
    rw [(g9 l1 o l0 rfl).1, hsum]
  · rintro (rfl | rfl)
    · rw [← hsum]; rfl
    · rw [← hsum]
      rw [List.append_nil] at g10
      exact g10

/-- A list that is in order up to the tolerance splits at every point that keeps the tolerance from all segments. -/
theorem splits_of_west {cfg : Cfg} (he : 0 < cfg.eps) {s : Segments ℝ} {st : Sweep.State ℝ} {x z : ℝ}
    (hm : ∀ a, a ∈ Sweep.newSegs st.line ↔ a < s.len ∧ (segAt s a).start.y ≤ z ∧ z < (segAt s a).stop.y)
    (hw : (Sweep.newSegs st.line).Pairwise (West cfg s z))
    (hx : ∀ a < s.len, (segAt s a).start.y ≤ z → z < (segAt s a).stop.y → Clear cfg.eps s x z a) : SplitsAt s st x z := by
  refine List.Pairwise.imp_of_mem ?_ hw
  rintro a b ha hb ⟨⟨y', k1, k2, k3, k4⟩, _⟩ hlt
  obtain ⟨h1, h2, h3⟩ := (hm a).1 ha
  obtain ⟨g1, g2, g3⟩ := (hm b).1 hb
  have hz : |z - z| ≤ cfg.eps := by simpa using he.le
  rcases hx b g1 g2 g3 with h4 | h4
  · rcases hx a h1 h2 h3 with h5 | h5
    · have := h5 z hz h2 h3.le
      linarith
    · have := h5 z hz h2 h3.le
      have := h4 y' k1 k2 k3
      linarith
  · have := h4 z hz g2 g3.le
    linarith

end Verif.Full
