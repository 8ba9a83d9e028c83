import Verif.Segs.Refine
import Mathlib.Order.Nat

/-!
# Properties C13–C18, C48: the segment arena

The contours of a history (`historyContours`) are read off the calls alone: for polylines, the list of
directed edges; for Bezier paths, the directed non-degenerate monotone pieces, subpath by subpath.
`Kind.chain` is an open polyline, `Kind.cycle` a closed contour and `Kind.dangling` an open subpath of a
Bezier path.
-/

namespace Verif.Segs

variable {K : Type} [LinearOrder K]
variable (zero one : K) (mono : PathSeg K → List (Cubic K × K × K)) (atY : Seg K → K → K)

/-- Index of the first segment of the contour that follows the contours `a`. -/
def baseOf (a : List (List (Pt K × Pt K) × Kind)) : Nat := (a.map fun c => c.1.length).sum

theorem contour_lookup {s : Segments K} {a b : List (List (Pt K × Pt K) × Kind)}
    {es : List (Pt K × Pt K)} {k : Kind} (h : Refines Segments.empty s (a ++ (es, k) :: b)) :
    Lens s ∧ s.len = baseOf a + es.length + baseOf b ∧ ∀ j e, es[j]? = some e →
      (∃ g, s.segs[baseOf a + j]? = some g ∧ g.start.le g.stop) ∧
      s.orientedStart (baseOf a + j) = some e.1 ∧ s.orientedEnd (baseOf a + j) = some e.2 ∧
      s.prev (baseOf a + j) =
        some (if j = 0 then firstPrev k (baseOf a) es.length else some (baseOf a + j - 1)) ∧
      s.next (baseOf a + j) =
        some (if j + 1 = es.length then lastNext k (baseOf a) es.length else some (baseOf a + j + 1)) := by
  obtain ⟨bs, e1, e2, e3⟩ := h
  obtain ⟨ba, rest, rfl, ha, hr⟩ := List.map_eq_append_iff.1 e1.symm
  obtain ⟨blk, bb, rfl, hblk, hb⟩ := List.map_eq_cons_iff.1 hr
  have hl0 : Lens (appendBlocks (Segments.empty : Segments K) ba) := lens_appendBlocks lens_empty
  have hl1 := lens_appendBlock hl0 blk
  have hls := lens_appendBlocks (bs := bb) hl1
  have hbase : (appendBlocks (Segments.empty : Segments K) ba).len = baseOf a := by
    rw [len_appendBlocks, ← ha]
    simp [Segments.empty, Segments.len, baseOf, Function.comp_def]
  have hbb : baseOf b = (bb.map fun b => b.1.length).sum := by
    rw [← hb]; simp [baseOf, Function.comp_def]
  obtain ⟨hes, hk⟩ := Prod.mk.inj hblk
  have hlen : es.length = blk.1.length := by rw [← hes]; simp
  have harr : SameArrays s (appendBlocks (appendBlock (appendBlocks Segments.empty ba) blk) bb) := by
    rw [appendBlocks_append] at e3; exact e3
  have hLs : Lens s := harr.lens hls
  refine ⟨hLs, ?_, ?_⟩
  · rw [harr.len, len_appendBlocks, len_appendBlock, hbase, hbb, hlen]
  · intro j e hj
    rw [← hes, List.getElem?_map] at hj
    obtain ⟨it, hit, rfl⟩ := Option.map_eq_some_iff.1 hj
    have hlt : j < blk.1.length := (List.getElem?_eq_some_iff.1 hit).1
    obtain ⟨p1, p2, p3, p4, p5, p6, p7, p8⟩ := block_lookup hl0 blk hit
    rw [hbase] at p1 p2 p3 p4 p5 p6 p7 p8
    have hfr := frame_appendBlocks bb (appendBlock (appendBlocks (Segments.empty : Segments K) ba) blk)
    have hin : baseOf a + j < (appendBlock (appendBlocks (Segments.empty : Segments K) ba) blk).len := by
      rw [len_appendBlock, hbase]; omega
    obtain ⟨q1, q2, q3, q4, q5, q6⟩ := frame_lookup hl1 hfr hin
    have hokk := e2 blk (by simp) it (List.mem_of_getElem? hit)
    have hor : ∀ i, s.orientedStart i =
        (appendBlocks (appendBlock (appendBlocks Segments.empty ba) blk) bb).orientedStart i ∧
        s.orientedEnd i =
        (appendBlocks (appendBlock (appendBlocks Segments.empty ba) blk) bb).orientedEnd i := by
      intro i; simp only [Segments.orientedStart, Segments.orientedEnd, harr.1, harr.2.1, and_self]
    obtain ⟨r1, r2⟩ := frame_oriented hl1 hfr hin
    refine ⟨⟨it.seg, ?_, hokk⟩, ?_, ?_, ?_, ?_⟩
    · rw [harr.1, q1, p1]
    · rw [(hor _).1, r1, p5]
    · rw [(hor _).2, r2, p6]
    · rw [Segments.prev, harr.2.2.1]
      have := q4.trans p7
      rw [Segments.prev] at this
      rw [this, hk, hlen]
    · rw [Segments.next, harr.2.2.2.1]
      have := q3.trans p8
      rw [Segments.next] at this
      rw [this, hk, hlen]

/-- Every index belongs to a contour. -/
theorem index_in_contour (cs : List (List (Pt K × Pt K) × Kind)) (i : Nat) (hi : i < baseOf cs) :
    ∃ a es k b j, cs = a ++ (es, k) :: b ∧ j < es.length ∧ i = baseOf a + j := by
  induction cs generalizing i with
  | nil => simp [baseOf] at hi
  | cons c cs ih =>
    obtain ⟨es, k⟩ := c
    by_cases h : i < es.length
    · exact ⟨[], es, k, cs, i, rfl, h, by simp [baseOf]⟩
    · have hb : baseOf ((es, k) :: cs) = es.length + baseOf cs := by simp [baseOf]
      rw [hb] at hi
      obtain ⟨a, es', k', b, j, e, hj, he⟩ := ih (i - es.length) (by omega)
      refine ⟨(es, k) :: a, es', k', b, j, by rw [e]; rfl, hj, ?_⟩
      have : baseOf ((es, k) :: a) = es.length + baseOf a := by simp [baseOf]
      rw [this]; omega

theorem refines_len {s : Segments K} {cs : List (List (Pt K × Pt K) × Kind)}
    (h : Refines Segments.empty s cs) : s.len = baseOf cs ∧ Lens s := by
  obtain ⟨bs, e1, e2, e3⟩ := h
  refine ⟨?_, e3.lens (lens_appendBlocks lens_empty)⟩
  rw [e3.len, len_appendBlocks, e1]
  simp [Segments.empty, Segments.len, baseOf, Function.comp_def]

/-! ## C13 -/

/-- **C13.** After any history of successful additions the segments, read in their original direction,
are exactly the directed edges of all the input contours, in input order; and each stored segment
starts at or before its end in sweep order. -/
theorem C13_read_back (ops : List (Op K)) (s : Segments K)
    (h : runOps zero one mono atY Segments.empty ops = some s) :
    ∃ cs, historyContours mono ops = some cs ∧
      (List.range s.len).map (fun i => (s.orientedStart i, s.orientedEnd i)) =
        (cs.flatMap Prod.fst).map (fun e => (some e.1, some e.2)) ∧
      ∀ g ∈ s.segs, g.start.le g.stop := by
  obtain ⟨cs, h1, h2, _⟩ := run_refines zero one mono atY ops _ _ lens_empty h
  obtain ⟨hlen, hL⟩ := refines_len h2
  have hflat : ∀ a es k b j, cs = a ++ (es, k) :: b → j < es.length →
      (cs.flatMap Prod.fst)[baseOf a + j]? = es[j]? := by
    intro a es k b j e hj
    have hla : (a.flatMap Prod.fst).length = baseOf a := by
      simp [List.length_flatMap, baseOf]
    rw [e, List.flatMap_append, List.flatMap_cons, List.getElem?_append_right (by omega), hla,
      Nat.add_sub_cancel_left, List.getElem?_append_left hj]
  refine ⟨cs, h1, ?_, ?_⟩
  · apply List.ext_getElem?
    intro i
    simp only [List.getElem?_map]
    by_cases hi : i < s.len
    · rw [List.getElem?_range hi]
      obtain ⟨a, es, k, b, j, e, hj, rfl⟩ := index_in_contour cs i (by omega)
      rw [hflat a es k b j e hj]
      have hje : es[j]? = some es[j] := List.getElem?_eq_getElem hj
      rw [e] at h2
      obtain ⟨_, _, h3⟩ := contour_lookup h2
      obtain ⟨_, q1, q2, _⟩ := h3 j _ hje
      simp [q1, q2, hje]
    · have l1 : (List.range s.len)[i]? = none := by simp; omega
      have l2 : (cs.flatMap Prod.fst)[i]? = none := by
        have : (cs.flatMap Prod.fst).length = baseOf cs := by
          simp [List.length_flatMap, baseOf]
        simp only [List.getElem?_eq_none_iff]; omega
      rw [l1, l2]; rfl
  · intro g hg
    obtain ⟨i, hi, rfl⟩ := List.getElem_of_mem hg
    have hi' : i < baseOf cs := by rw [← hlen]; exact hi
    obtain ⟨a, es, k, b, j, e, hj, rfl⟩ := index_in_contour cs i hi'
    rw [e] at h2
    obtain ⟨_, _, h3⟩ := contour_lookup h2
    obtain ⟨⟨g', hg', hle⟩, _⟩ := h3 j _ (List.getElem?_eq_getElem hj)
    rw [List.getElem?_eq_getElem hi] at hg'
    simp only [Option.some.injEq] at hg'
    rw [hg']; exact hle

/-- **C13 (parallel arrays).** All per-segment arrays always have the same length, so no lookup by a
segment index can go out of bounds. -/
theorem C13_arrays (ops : List (Op K)) (s : Segments K)
    (h : runOps zero one mono atY Segments.empty ops = some s) :
    s.contourPrev.length = s.segs.length ∧ s.contourNext.length = s.segs.length ∧
    s.orientation.length = s.segs.length ∧ s.splitFromPredecessor.length = s.segs.length ∧
    s.inputSegs.length = s.segs.length := by
  obtain ⟨cs, h1, h2, _⟩ := run_refines zero one mono atY ops _ _ lens_empty h
  exact (refines_len h2).2

/-! ## C14 -/

theorem walk_cycle (s : Segments K) (base n : Nat)
    (hnext : ∀ j, j < n → s.next (base + j) = some (some (base + (j + 1) % n))) (j : Nat) (hj : j < n) :
    ∀ m, walk s (base + j) m = some (base + (j + m) % n) := by
  intro m
  induction m with
  | zero => simp [walk, Nat.mod_eq_of_lt hj]
  | succ m ih =>
    have hn : 0 < n := by omega
    simp only [walk, ih]
    rw [hnext _ (Nat.mod_lt _ hn)]
    simp only [Option.some.injEq, Nat.add_left_cancel_iff, Nat.mod_add_mod]
    rw [Nat.add_assoc]

/-- **C14.** For every closed contour with `n` pieces anywhere in any history: `contour_next` goes round
it cyclically, `contour_prev` is the inverse, and following `contour_next` `m` times from the `j`-th
piece arrives at piece `(j + m) mod n`: it stays inside, visits all pieces and returns after `n` steps. -/
theorem C14_cycle (ops : List (Op K)) (s : Segments K)
    (h : runOps zero one mono atY Segments.empty ops = some s)
    (a b : List (List (Pt K × Pt K) × Kind)) (es : List (Pt K × Pt K))
    (hc : historyContours mono ops = some (a ++ (es, .cycle) :: b)) (j : Nat) (hj : j < es.length) :
    s.next (baseOf a + j) = some (some (baseOf a + (j + 1) % es.length)) ∧
    s.prev (baseOf a + (j + 1) % es.length) = some (some (baseOf a + j)) ∧
    (∀ m, walk s (baseOf a + j) m = some (baseOf a + (j + m) % es.length)) := by
  obtain ⟨cs, h1, h2, _⟩ := run_refines zero one mono atY ops _ _ lens_empty h
  rw [hc] at h1; simp only [Option.some.injEq] at h1; subst h1
  obtain ⟨_, _, h3⟩ := contour_lookup h2
  have hnext : ∀ j, j < es.length → s.next (baseOf a + j) = some (some (baseOf a + (j + 1) % es.length)) := by
    intro j hj
    obtain ⟨_, _, _, _, q⟩ := h3 j _ (List.getElem?_eq_getElem hj)
    rw [q]
    by_cases hl : j + 1 = es.length
    · simp [hl, lastNext]
    · rw [if_neg hl, Nat.mod_eq_of_lt (by omega)]; rfl
  refine ⟨hnext j hj, ?_, walk_cycle s _ _ hnext j hj⟩
  have hn : 0 < es.length := by omega
  obtain ⟨_, _, _, q, _⟩ := h3 ((j + 1) % es.length) _ (List.getElem?_eq_getElem (Nat.mod_lt _ hn))
  rw [q]
  by_cases hl : j + 1 = es.length
  · have hm : (j + 1) % es.length = 0 := by rw [hl]; simp
    rw [if_pos hm, firstPrev]
    congr 2; omega
  · have hm : (j + 1) % es.length = j + 1 := Nat.mod_eq_of_lt (by omega)
    rw [hm, if_neg (by omega)]
    rfl

/-- Each curved input segment is split into pieces that lead from its start to its end (a fact about
`monotonic_pieces`, geom.rs:174-229: piece ends are the same evaluations of the curve). -/
def MonoLeads : Prop :=
  (∀ p0 p1 p2, Leads p0 p2 (segEdges mono (.quad p0 p1 p2))) ∧
  (∀ p0 p1 p2 p3, Leads p0 p3 (segEdges mono (.cubic p0 p1 p2 p3)))

omit [LinearOrder K] in
theorem Leads.append {a b c : Pt K} {es fs : List (Pt K × Pt K)} (h1 : Leads a b es)
    (h2 : Leads b c fs) : Leads a c (es ++ fs) := by
  induction es generalizing a with
  | nil => simp only [Leads] at h1; subst h1; exact h2
  | cons e es ih =>
    obtain ⟨p, q⟩ := e
    exact ⟨h1.1, ih h1.2⟩

/-- Consecutive edges of a connected sequence share their point. -/
theorem Leads.adj {a b : Pt K} {es : List (Pt K × Pt K)} (h : Leads a b es) (j : Nat)
    (e f : Pt K × Pt K) (h1 : es[j]? = some e) (h2 : es[j + 1]? = some f) : e.2 = f.1 := by
  induction es generalizing a j with
  | nil => simp at h1
  | cons x es ih =>
    obtain ⟨p, q⟩ := x
    cases j with
    | zero =>
      simp at h1 h2
      cases es with
      | nil => simp at h2
      | cons y es =>
        obtain ⟨p', q'⟩ := y
        simp at h2
        subst h1 h2
        exact h.2.1
    | succ j => exact ih h.2 j (by simpa using h1) (by simpa using h2)

theorem kurboSegments_leads (hm : MonoLeads mono) (els : List (PathEl K)) (hmv : ∀ p, .moveTo p ∉ els) :
    ∀ (start last : Pt K) gs, kurboSegments (some (start, last)) els = some gs →
      ∃ stop, Leads last stop (gs.flatMap (segEdges mono)) := by
  induction els with
  | nil =>
    intro start last gs h
    simp only [kurboSegments, Option.some.injEq] at h
    subst h
    exact ⟨last, rfl⟩
  | cons el els ih =>
    intro start last gs h
    have hline : ∀ p q : Pt K, Leads p q (segEdges mono (.line p q)) := by
      intro p q
      simp only [segEdges]
      by_cases e : p = q
      · rw [if_pos e]; exact e
      · rw [if_neg e]; exact ⟨rfl, rfl⟩
    have ih' := ih (fun p hp => hmv p (by simp [hp]))
    simp only [kurboSegments] at h
    cases el with
    | moveTo p => exact absurd (by simp) (hmv p)
    | lineTo p =>
      simp only [kurboStep] at h
      cases hk : kurboSegments (some (start, p)) els with
      | none => simp [hk] at h
      | some rest =>
        simp only [hk, Option.some.injEq] at h
        subst h
        obtain ⟨stop, hs⟩ := ih' start p rest hk
        refine ⟨stop, ?_⟩
        simp only [List.singleton_append, List.flatMap_cons]
        exact (hline last p).append hs
    | quadTo p1 p =>
      simp only [kurboStep] at h
      cases hk : kurboSegments (some (start, p)) els with
      | none => simp [hk] at h
      | some rest =>
        simp only [hk, Option.some.injEq] at h
        subst h
        obtain ⟨stop, hs⟩ := ih' start p rest hk
        refine ⟨stop, ?_⟩
        simp only [List.singleton_append, List.flatMap_cons]
        exact (hm.1 last p1 p).append hs
    | curveTo p1 p2 p =>
      simp only [kurboStep] at h
      cases hk : kurboSegments (some (start, p)) els with
      | none => simp [hk] at h
      | some rest =>
        simp only [hk, Option.some.injEq] at h
        subst h
        obtain ⟨stop, hs⟩ := ih' start p rest hk
        refine ⟨stop, ?_⟩
        simp only [List.singleton_append, List.flatMap_cons]
        exact (hm.2 last p1 p2 p).append hs
    | closePath =>
      simp only [kurboStep] at h
      by_cases e : last = start
      · subst e
        simp only [ne_eq, not_true_eq_false, if_false] at h
        cases hk : kurboSegments (some (last, last)) els with
        | none => simp [hk] at h
        | some rest =>
          simp only [hk, Option.some.injEq, List.nil_append] at h
          subst h
          exact ih' last last rest hk
      · simp only [ne_eq, e, not_false_eq_true, if_true] at h
        cases hk : kurboSegments (some (start, start)) els with
        | none => simp [hk] at h
        | some rest =>
          simp only [hk, Option.some.injEq] at h
          subst h
          obtain ⟨stop, hs⟩ := ih' start start rest hk
          refine ⟨stop, ?_⟩
          simp only [List.singleton_append, List.flatMap_cons]
          exact (hline last start).append hs

omit [LinearOrder K] in
theorem takeSubpath_spec (els : List (PathEl K)) :
    (takeSubpath els).1 ++ (takeSubpath els).2 = els ∧ (∀ p, .moveTo p ∉ (takeSubpath els).1) ∧
    (∀ e rest, (takeSubpath els).2 = e :: rest → ∃ p, e = .moveTo p) := by
  induction els with
  | nil => simp [takeSubpath]
  | cons el els ih =>
    obtain ⟨h1, h2, h3⟩ := ih
    cases el with
    | moveTo p =>
      refine ⟨by simp [takeSubpath], by simp [takeSubpath], ?_⟩
      intro e rest he
      simp [takeSubpath] at he
      exact ⟨p, he.1.symm⟩
    | lineTo p => exact ⟨by simp [takeSubpath, h1], by simp [takeSubpath, h2], by simpa [takeSubpath] using h3⟩
    | quadTo q p => exact ⟨by simp [takeSubpath, h1], by simp [takeSubpath, h2], by simpa [takeSubpath] using h3⟩
    | curveTo q r p => exact ⟨by simp [takeSubpath, h1], by simp [takeSubpath, h2], by simpa [takeSubpath] using h3⟩
    | closePath => exact ⟨by simp [takeSubpath, h1], by simp [takeSubpath, h2], by simpa [takeSubpath] using h3⟩

/-- **C48.** Splitting a path into subpaths loses nothing and splits exactly before each `MoveTo`: the
subpaths concatenate to the path, each is non-empty, no `MoveTo` occurs inside one except as its first
element, and every subpath but the first starts with a `MoveTo`. -/
theorem C48_subpaths (els : List (PathEl K)) :
    (subpaths els).flatten = els ∧ (∀ sub ∈ subpaths els, sub ≠ [] ∧ ∀ p, .moveTo p ∉ sub.tail) ∧
    (∀ sub ∈ (subpaths els).tail, ∃ p rest, sub = .moveTo p :: rest) := by
  suffices H : ∀ n (els : List (PathEl K)), els.length ≤ n →
      (subpaths els).flatten = els ∧ (∀ sub ∈ subpaths els, sub ≠ [] ∧ ∀ p, .moveTo p ∉ sub.tail) ∧
      (∀ sub ∈ (subpaths els).tail, ∃ p rest, sub = .moveTo p :: rest) ∧
      (∀ sub, (subpaths els).head? = some sub → sub.head? = els.head?) from
    ⟨(H _ els le_rfl).1, (H _ els le_rfl).2.1, (H _ els le_rfl).2.2.1⟩
  intro n
  induction n with
  | zero =>
    intro els h
    cases els with
    | nil => simp [subpaths]
    | cons e els => simp at h
  | succ n ih =>
    intro els h
    cases els with
    | nil => simp [subpaths]
    | cons e els =>
      obtain ⟨t1, t2, t3⟩ := takeSubpath_spec els
      have hl := takeSubpath_length els
      obtain ⟨i1, i2, i3, i4⟩ := ih (takeSubpath els).2 (by simp at h; omega)
      rw [subpaths]
      refine ⟨?_, ?_, ?_, ?_⟩
      · simp [i1, t1]
      · intro sub hsub
        rw [List.mem_cons] at hsub
        rcases hsub with rfl | hsub
        · exact ⟨by simp, by simpa using t2⟩
        · exact i2 sub hsub
      · intro sub hsub
        simp only [List.tail_cons] at hsub
        cases hs : subpaths (takeSubpath els).2 with
        | nil => rw [hs] at hsub; simp at hsub
        | cons x xs =>
          rw [hs] at hsub i3 i4
          rw [List.mem_cons] at hsub
          rcases hsub with rfl | hsub
          · have hx := i4 sub rfl
            have hne := (i2 sub (by rw [hs]; simp)).1
            cases hsb : sub with
            | nil => exact absurd hsb hne
            | cons y ys =>
              rw [hsb] at hx
              cases hrest : (takeSubpath els).2 with
              | nil => rw [hrest] at hx; simp at hx
              | cons z zs =>
                rw [hrest] at hx
                simp at hx
                obtain ⟨p, hp⟩ := t3 z zs hrest
                exact ⟨p, ys, by rw [hx, hp]⟩
          · exact i3 sub (by simpa using hsub)
      · intro sub hsub
        simp at hsub
        rw [← hsub]; rfl

theorem subpathContour_leads (hm : MonoLeads mono) (sub : List (PathEl K)) (hne : sub ≠ [])
    (hmv : ∀ p, .moveTo p ∉ sub.tail) (es : List (Pt K × Pt K)) (k : Kind)
    (h : subpathContour mono sub = some (es, k)) :
    (∃ a b, Leads a b es) ∧ k ≠ .chain ∧ (k = .cycle ↔ closedLoop es = true) := by
  simp only [subpathContour, Option.map_eq_some_iff] at h
  obtain ⟨gs, hg, he⟩ := h
  have he1 := (Prod.mk.inj he).1
  have he2 := (Prod.mk.inj he).2
  rw [he1] at he2
  refine ⟨?_, by rw [← he2]; split <;> simp, by rw [← he2]; cases hcl : closedLoop es <;> simp⟩
  subst he1
  cases sub with
  | nil => exact absurd rfl hne
  | cons el els =>
    have hmv' : ∀ p, .moveTo p ∉ els := hmv
    have key : ∀ p, (∀ q, el ≠ .moveTo q) → kurboSegments (some (p, p)) (el :: els) = some gs →
        ∃ a b, Leads a b (gs.flatMap (segEdges mono)) := by
      intro p hel hk
      obtain ⟨stop, hs⟩ := kurboSegments_leads mono hm (el :: els) (by
        intro q hq
        rw [List.mem_cons] at hq
        rcases hq with hq | hq
        · exact hel q hq.symm
        · exact hmv' q hq) p p gs hk
      exact ⟨p, stop, hs⟩
    cases el with
    | moveTo p =>
      simp only [kurboSegments, kurboStep] at hg
      cases hk : kurboSegments (some (p, p)) els with
      | none => simp [hk] at hg
      | some rest =>
        simp only [hk, Option.some.injEq, List.nil_append] at hg
        subst hg
        obtain ⟨stop, hs⟩ := kurboSegments_leads mono hm els hmv' p p rest hk
        exact ⟨p, stop, hs⟩
    | lineTo p => exact key p (by simp) hg
    | quadTo q p => exact key p (by simp) hg
    | curveTo q r p => exact key p (by simp) hg
    | closePath => simp [kurboSegments, kurboStep] at hg

theorem openEdges_leads (ps : List (Pt K)) (a : Pt K) : ∃ b, Leads a b (openEdges (a :: ps)) := by
  induction ps generalizing a with
  | nil => exact ⟨a, rfl⟩
  | cons c ps ih =>
    obtain ⟨b, hb⟩ := ih c
    exact ⟨b, rfl, hb⟩

theorem zip_leads (ps : List (Pt K)) (x : Pt K) : ∀ a, Leads a x ((a :: ps).zip (ps ++ [x])) := by
  induction ps with
  | nil => intro a; exact ⟨rfl, rfl⟩
  | cons b ps ih => intro a; exact ⟨rfl, ih b⟩

theorem closedEdges_leads (ps : List (Pt K)) (h : closedEdges ps ≠ []) :
    ∃ a, Leads a a (closedEdges ps) := by
  match ps, h with
  | [], h => simp [closedEdges] at h
  | [a], h => simp [closedEdges] at h
  | a :: b :: rest, _ =>
    refine ⟨a, ?_⟩
    have := zip_leads (b :: rest) a a
    simpa [closedEdges] using this

theorem Leads.ends {a b : Pt K} {es : List (Pt K × Pt K)} (h : Leads a b es) (hne : es ≠ []) :
    es.head?.map Prod.fst = some a ∧ es.getLast?.map Prod.snd = some b := by
  induction es generalizing a with
  | nil => exact absurd rfl hne
  | cons e es ih =>
    obtain ⟨p, q⟩ := e
    refine ⟨by simp [h.1], ?_⟩
    cases es with
    | nil =>
      have := h.2
      simp only [Leads] at this
      simp [this]
    | cons f fs =>
      have := (ih h.2 (by simp)).2
      simpa using this

theorem allSome_mem {α β : Type} (f : α → Option β) (l : List α) (r : List β)
    (h : allSome f l = some r) : ∀ b ∈ r, ∃ a ∈ l, f a = some b := by
  induction l generalizing r with
  | nil => simp [allSome] at h; subst h; simp
  | cons a l ih =>
    simp only [allSome] at h
    split at h
    · rename_i b bs h1 h2
      simp only [Option.some.injEq] at h
      subst h
      intro x hx
      rw [List.mem_cons] at hx
      rcases hx with rfl | hx
      · exact ⟨a, by simp, h1⟩
      · obtain ⟨y, hy, hy'⟩ := ih bs h2 x hx
        exact ⟨y, by simp [hy], hy'⟩
    · simp at h

/-- Every contour of every history is a connected sequence of edges; closed ones return to their start. -/
theorem contour_connected (hm : MonoLeads mono) (ops : List (Op K))
    (cs : List (List (Pt K × Pt K) × Kind)) (h : historyContours mono ops = some cs)
    (es : List (Pt K × Pt K)) (k : Kind) (hc : (es, k) ∈ cs) (hne : es ≠ []) :
    ∃ a b, Leads a b es ∧ (k = .cycle → a = b) := by
  simp only [historyContours, Option.map_eq_some_iff] at h
  obtain ⟨css, h1, rfl⟩ := h
  rw [List.mem_flatten] at hc
  obtain ⟨c, hc1, hc2⟩ := hc
  obtain ⟨op, _, hop⟩ := allSome_mem _ _ _ h1 c hc1
  cases op with
  | addPoints ps =>
    simp only [Op.contours, Option.some.injEq] at hop
    subst hop
    simp only [List.mem_singleton, Prod.mk.injEq] at hc2
    obtain ⟨rfl, rfl⟩ := hc2
    cases ps with
    | nil => simp [openEdges] at hne
    | cons a ps =>
      obtain ⟨b, hb⟩ := openEdges_leads ps a
      exact ⟨a, b, hb, by simp⟩
  | addClosedPolyline ps =>
    simp only [Op.contours, Option.some.injEq] at hop
    subst hop
    simp only [List.mem_singleton, Prod.mk.injEq] at hc2
    obtain ⟨rfl, rfl⟩ := hc2
    obtain ⟨a, ha⟩ := closedEdges_leads ps hne
    exact ⟨a, a, ha, fun _ => rfl⟩
  | addClosedPolylines pss =>
    simp only [Op.contours, Option.some.injEq] at hop
    subst hop
    rw [List.mem_map] at hc2
    obtain ⟨ps, _, he⟩ := hc2
    simp only [Prod.mk.injEq] at he
    obtain ⟨rfl, rfl⟩ := he
    obtain ⟨a, ha⟩ := closedEdges_leads ps hne
    exact ⟨a, a, ha, fun _ => rfl⟩
  | addPath cl p =>
    simp only [Op.contours] at hop
    obtain ⟨sub, hsub, hs⟩ := allSome_mem _ _ _ hop _ hc2
    obtain ⟨_, q2, _⟩ := C48_subpaths p
    obtain ⟨⟨a, b, hl⟩, _, hcyc⟩ := subpathContour_leads mono hm sub (q2 sub hsub).1 (q2 sub hsub).2 es k hs
    refine ⟨a, b, hl, ?_⟩
    intro hk
    have hloop := hcyc.1 hk
    obtain ⟨e1, e2⟩ := hl.ends hne
    rw [Option.map_eq_some_iff] at e1 e2
    obtain ⟨x, hx, rfl⟩ := e1
    obtain ⟨y, hy, rfl⟩ := e2
    simpa [closedLoop, hx, hy] using hloop

/-- **C14 (geometry).** Around a closed contour each segment ends, in input direction, where the next one
starts. -/
theorem C14_share_endpoint (hm : MonoLeads mono) (ops : List (Op K)) (s : Segments K)
    (h : runOps zero one mono atY Segments.empty ops = some s)
    (a b : List (List (Pt K × Pt K) × Kind)) (es : List (Pt K × Pt K))
    (hc : historyContours mono ops = some (a ++ (es, .cycle) :: b)) (j : Nat) (hj : j < es.length) :
    ∃ p, s.orientedEnd (baseOf a + j) = some p ∧
      s.orientedStart (baseOf a + (j + 1) % es.length) = some p := by
  obtain ⟨cs, h1, h2, _⟩ := run_refines zero one mono atY ops _ _ lens_empty h
  rw [hc] at h1; simp only [Option.some.injEq] at h1; subst h1
  obtain ⟨_, _, h3⟩ := contour_lookup h2
  have hn : 0 < es.length := by omega
  have hne : es ≠ [] := List.length_pos_iff.1 hn
  obtain ⟨x, y, hl, hxy⟩ := contour_connected mono hm ops _ hc es .cycle (by simp) hne
  have hxy' := hxy rfl
  subst hxy'
  obtain ⟨_, _, q1, _⟩ := h3 j _ (List.getElem?_eq_getElem hj)
  have hj' : (j + 1) % es.length < es.length := Nat.mod_lt _ hn
  obtain ⟨_, q2, _⟩ := h3 ((j + 1) % es.length) _ (List.getElem?_eq_getElem hj')
  refine ⟨_, q1, ?_⟩
  rw [q2]
  congr 1
  by_cases hlast : j + 1 = es.length
  · obtain ⟨e1, e2⟩ := hl.ends hne
    rw [List.head?_eq_getElem?, List.getElem?_eq_getElem hn] at e1
    rw [List.getLast?_eq_getElem?, List.getElem?_eq_getElem (by omega)] at e2
    simp only [Option.map_some, Option.some.injEq] at e1 e2
    have hm0 : (j + 1) % es.length = 0 := by rw [hlast]; simp
    have hjl : j = es.length - 1 := by omega
    simp only [hm0, e1]
    subst hjl
    exact e2.symm
  · have hm1 : (j + 1) % es.length = j + 1 := Nat.mod_eq_of_lt (by omega)
    simp only [hm1]
    exact (hl.adj j _ _ (List.getElem?_eq_getElem hj) (List.getElem?_eq_getElem (by omega))).symm

/-! ## C15 -/

/-- **C15.** For every open polyline added by `add_points`, `contour_prev` is `None` exactly at its first
segment, `contour_next` is `None` exactly at its last, and in between they lead to the neighbours. -/
theorem C15_chain (ops : List (Op K)) (s : Segments K)
    (h : runOps zero one mono atY Segments.empty ops = some s)
    (a b : List (List (Pt K × Pt K) × Kind)) (es : List (Pt K × Pt K))
    (hc : historyContours mono ops = some (a ++ (es, .chain) :: b)) (j : Nat) (hj : j < es.length) :
    (j + 1 < es.length → s.next (baseOf a + j) = some (some (baseOf a + j + 1)) ∧
      s.prev (baseOf a + j + 1) = some (some (baseOf a + j))) ∧
    (j + 1 = es.length → s.next (baseOf a + j) = some none) ∧
    (j = 0 → s.prev (baseOf a + j) = some none) := by
  obtain ⟨cs, h1, h2, _⟩ := run_refines zero one mono atY ops _ _ lens_empty h
  rw [hc] at h1; simp only [Option.some.injEq] at h1; subst h1
  obtain ⟨_, _, h3⟩ := contour_lookup h2
  obtain ⟨_, _, _, q1, q2⟩ := h3 j _ (List.getElem?_eq_getElem hj)
  refine ⟨?_, ?_, ?_⟩
  · intro hl
    refine ⟨by rw [q2, if_neg (by omega)], ?_⟩
    obtain ⟨_, _, _, q3, _⟩ := h3 (j + 1) _ (List.getElem?_eq_getElem hl)
    rw [← Nat.add_assoc] at q3
    rw [q3, if_neg (by omega)]; rfl
  · intro hl; rw [q2, if_pos hl]; rfl
  · intro hl; rw [q1, if_pos hl]; rfl

/-! ## C16 -/

/-- **C16.** After any history of successful additions the schedules are complete and sorted. -/
theorem C16_schedules (ops : List (Op K)) (s : Segments K)
    (h : runOps zero one mono atY Segments.empty ops = some s) : Scheduled atY s := by
  obtain ⟨cs, h1, h2, h3⟩ := run_refines zero one mono atY ops _ _ lens_empty h
  exact h3 (scheduled_empty atY)

/-- **C16 (read as statements about heights).** `(y, i)` is in the entrance list iff segment `i` starts
at height `y`; it is in the exit list iff segment `i` is not horizontal and ends at height `y`; each
segment is listed at most once. -/
theorem C16_membership (ops : List (Op K)) (s : Segments K)
    (h : runOps zero one mono atY Segments.empty ops = some s) (y : K) (i : Nat) :
    ((y, i) ∈ s.enter ↔ ∃ g, s.segs[i]? = some g ∧ g.start.y = y) ∧
    ((y, i) ∈ s.exit ↔ ∃ g, s.segs[i]? = some g ∧ g.isHorizontal = false ∧ g.stop.y = y) ∧
    (s.enter.map Prod.snd).Nodup ∧ (s.exit.map Prod.snd).Nodup := by
  have hs := C16_schedules zero one mono atY ops s h
  have hnd : ∀ l : List (Seg K × Nat), l.Sublist s.segs.zipIdx → (l.map Prod.snd).Nodup := by
    intro l hl
    have h1 : (s.segs.zipIdx.map Prod.snd).Nodup := by
      rw [List.zipIdx_map_snd]; exact List.nodup_range'
    exact List.Nodup.sublist (hl.map _) h1
  refine ⟨?_, ?_, ?_, ?_⟩
  · rw [hs.enter_perm.mem_iff]
    simp only [List.mem_map, Prod.mk.injEq, Prod.exists, List.mk_mem_zipIdx_iff_getElem?]
    constructor
    · rintro ⟨g, n, h1, h2, rfl⟩; exact ⟨g, h1, h2⟩
    · rintro ⟨g, h1, h2⟩; exact ⟨g, i, h1, h2, rfl⟩
  · rw [hs.exit_perm.mem_iff]
    simp only [List.mem_map, List.mem_filter, Prod.mk.injEq, Prod.exists,
      List.mk_mem_zipIdx_iff_getElem?, Bool.not_eq_true']
    constructor
    · rintro ⟨g, n, ⟨h1, h3⟩, h2, rfl⟩; exact ⟨g, h1, h3, h2⟩
    · rintro ⟨g, h1, h3, h2⟩; exact ⟨g, i, ⟨h1, h3⟩, h2, rfl⟩
  · rw [(hs.enter_perm.map Prod.snd).nodup_iff, List.map_map]
    exact hnd _ (List.Sublist.refl _)
  · rw [(hs.exit_perm.map Prod.snd).nodup_iff, List.map_map]
    exact hnd _ List.filter_sublist

/-! ## The library's own invariant check -/

theorem links_ok (hm : MonoLeads mono) (ops : List (Op K)) (s : Segments K)
    (h : runOps zero one mono atY Segments.empty ops = some s)
    (cs : List (List (Pt K × Pt K) × Kind)) (hcs : historyContours mono ops = some cs)
    (hnd : ∀ c ∈ cs, c.2 ≠ .dangling) (i : Nat) (hi : i < s.len) :
    ∃ g nx, s.segs[i]? = some g ∧ g.start.le g.stop ∧ s.next i = some nx ∧
      ∀ j, nx = some j → ∃ p, s.orientedEnd i = some p ∧ s.orientedStart j = some p ∧
        s.prev j = some (some i) := by
  obtain ⟨cs', h1, h2, _⟩ := run_refines zero one mono atY ops _ _ lens_empty h
  rw [hcs] at h1; simp only [Option.some.injEq] at h1; subst h1
  obtain ⟨hlen, _⟩ := refines_len h2
  obtain ⟨a, es, k, b, j, e, hj, rfl⟩ := index_in_contour cs i (by omega)
  rw [e] at h2 hcs
  obtain ⟨_, _, h3⟩ := contour_lookup h2
  obtain ⟨⟨g, hg, hle⟩, _⟩ := h3 j _ (List.getElem?_eq_getElem hj)
  have hkd := hnd (es, k) (by rw [e]; simp)
  cases k with
  | dangling => exact absurd rfl hkd
  | cycle =>
    obtain ⟨q1, q2, _⟩ := C14_cycle zero one mono atY ops s h a b es hcs j hj
    obtain ⟨p, q3, q4⟩ := C14_share_endpoint zero one mono atY hm ops s h a b es hcs j hj
    refine ⟨g, _, hg, hle, q1, ?_⟩
    intro j' hj'
    simp only [Option.some.injEq] at hj'
    subst hj'
    exact ⟨p, q3, q4, q2⟩
  | chain =>
    obtain ⟨q1, q2, _⟩ := C15_chain zero one mono atY ops s h a b es hcs j hj
    by_cases hl : j + 1 < es.length
    · obtain ⟨q3, q4⟩ := q1 hl
      refine ⟨g, _, hg, hle, q3, ?_⟩
      intro j' hj'
      simp only [Option.some.injEq] at hj'
      subst hj'
      obtain ⟨_, _, r1, _⟩ := h3 j _ (List.getElem?_eq_getElem hj)
      obtain ⟨_, r2, _⟩ := h3 (j + 1) _ (List.getElem?_eq_getElem hl)
      obtain ⟨x, y, hlead, _⟩ := contour_connected mono hm ops _ hcs es .chain (by simp)
        (List.length_pos_iff.1 (by omega))
      refine ⟨_, r1, ?_, q4⟩
      rw [Nat.add_assoc, r2]
      congr 1
      exact (hlead.adj j _ _ (List.getElem?_eq_getElem hj) (List.getElem?_eq_getElem hl)).symm
    · exact ⟨g, none, hg, hle, q2 (by omega), by simp⟩

/-- **C14/C15 (check_invariants).** The library's own `check_invariants` passes after every history whose
Bezier subpaths are all closed. -/
theorem C14_check_invariants (hm : MonoLeads mono) (ops : List (Op K)) (s : Segments K)
    (h : runOps zero one mono atY Segments.empty ops = some s)
    (cs : List (List (Pt K × Pt K) × Kind)) (hcs : historyContours mono ops = some cs)
    (hnd : ∀ c ∈ cs, c.2 ≠ .dangling) : s.checkInvariants = true := by
  simp only [Segments.checkInvariants, List.all_eq_true, List.mem_range]
  intro i hi
  obtain ⟨g, nx, h1, h2, h3, h4⟩ := links_ok zero one mono atY hm ops s h cs hcs hnd i hi
  simp only [h1, h3]
  cases nx with
  | none => simp [h2]
  | some j =>
    obtain ⟨p, e1, e2, e3⟩ := h4 j rfl
    simp [h2, e1, e2, e3]

/-! ## C17 -/

/-- **C17 (violated).** The last segment of an open Bezier subpath has a successor, contrary to the
documentation of `contour_next`: the index just after it (an unrelated contour, or no segment at
all), for *every* non-closed subpath with at least one piece. -/
theorem C17_open_path_has_next (ops : List (Op K)) (s : Segments K)
    (h : runOps zero one mono atY Segments.empty ops = some s)
    (a b : List (List (Pt K × Pt K) × Kind)) (es : List (Pt K × Pt K))
    (hc : historyContours mono ops = some (a ++ (es, .dangling) :: b)) (hne : es ≠ []) :
    s.next (baseOf a + es.length - 1) = some (some (baseOf a + es.length)) ∧
    s.prev (baseOf a) = some (some (baseOf a - 1)) := by
  obtain ⟨cs, h1, h2, _⟩ := run_refines zero one mono atY ops _ _ lens_empty h
  rw [hc] at h1; simp only [Option.some.injEq] at h1; subst h1
  obtain ⟨_, _, h3⟩ := contour_lookup h2
  have hn : 0 < es.length := List.length_pos_iff.2 hne
  obtain ⟨_, _, _, _, q⟩ := h3 (es.length - 1) _ (List.getElem?_eq_getElem (by omega))
  obtain ⟨_, _, _, q', _⟩ := h3 0 _ (List.getElem?_eq_getElem hn)
  refine ⟨?_, by simpa [firstPrev] using q'⟩
  rw [show baseOf a + es.length - 1 = baseOf a + (es.length - 1) by omega, q, if_pos (by omega)]
  rfl

/-- **C17 (partial).** Inside an open Bezier subpath the links are right; only its two ends are wrong
(`C17_open_path_has_next`). -/
theorem C17_interior_links_partial (ops : List (Op K)) (s : Segments K)
    (h : runOps zero one mono atY Segments.empty ops = some s)
    (a b : List (List (Pt K × Pt K) × Kind)) (es : List (Pt K × Pt K))
    (hc : historyContours mono ops = some (a ++ (es, .dangling) :: b)) (j : Nat) (hj : j + 1 < es.length) :
    s.next (baseOf a + j) = some (some (baseOf a + j + 1)) ∧
    s.prev (baseOf a + j + 1) = some (some (baseOf a + j)) := by
  obtain ⟨cs, h1, h2, _⟩ := run_refines zero one mono atY ops _ _ lens_empty h
  rw [hc] at h1; simp only [Option.some.injEq] at h1; subst h1
  obtain ⟨_, _, h3⟩ := contour_lookup h2
  obtain ⟨_, _, _, _, q1⟩ := h3 j _ (List.getElem?_eq_getElem (by omega))
  obtain ⟨_, _, _, q2, _⟩ := h3 (j + 1) _ (List.getElem?_eq_getElem hj)
  rw [← Nat.add_assoc] at q2
  exact ⟨by rw [q1, if_neg (by omega)], by rw [q2, if_neg (by omega)]; rfl⟩

/-! ## C18 -/

/-- **C18 (partial).** A failed `add_bez_path` reports a genuinely non-closed subpath (its start and end
points differ), leaves every earlier segment with all its links untouched and both schedules as they
were. Missing: the segments pushed before the failure stay in the arena (`C18_leftovers`). -/
theorem C18_failed_add_partial (s s' : Segments K) (hs : Lens s) (c : Bool) (p : List (PathEl K))
    (x y : Pt K) (h : s.addPath zero one mono atY c p = .err x y s') :
    c = true ∧ x ≠ y ∧ s'.enter = s.enter ∧ s'.exit = s.exit ∧ Lens s' ∧
    ∀ i, i < s.len → s'.segs[i]? = s.segs[i]? ∧ s'.next i = s.next i ∧ s'.prev i = s.prev i ∧
      s'.orientedStart i = s.orientedStart i ∧ s'.orientedEnd i = s.orientedEnd i := by
  have h1 := subpaths_refines zero one mono c (subpaths p) s hs
  simp only [Segments.addPath] at h
  cases hr : s.addSubpaths zero one mono c (subpaths p) with
  | ok s1 => rw [hr] at h; simp at h
  | panic => rw [hr] at h; simp at h
  | err a b s1 =>
    rw [hr] at h h1
    simp only [Outcome.err.injEq] at h
    obtain ⟨rfl, rfl, rfl⟩ := h
    obtain ⟨hc, cs, q1, q2, q3, _, q4⟩ := h1
    refine ⟨hc, q4, q2, q3, q1.lens hs, ?_⟩
    intro i hi
    obtain ⟨f1, f2, f3, f4, _⟩ := frame_lookup hs q1.frame hi
    obtain ⟨f5, f6⟩ := frame_oriented hs q1.frame hi
    exact ⟨f1, f3, f4, f5, f6⟩

/-- **C18 (violated).** A failing addition leaves segments behind that are in no schedule: adding the
open path `(0,0) → (0,1)`. -/
theorem C18_leftovers : ∃ (p : List (PathEl Nat)) (x y : Pt Nat) (s' : Segments Nat),
    Segments.addPath 0 1 (fun _ => []) (fun g _ => g.start.x) true Segments.empty p = .err x y s' ∧
    s'.len = 1 ∧ s'.enter = [] ∧ s'.exit = [] := by
  refine ⟨[.moveTo ⟨0, 0⟩, .lineTo ⟨0, 1⟩], ⟨0, 0⟩, ⟨0, 1⟩,
    ⟨[.line ⟨0, 0⟩ ⟨0, 1⟩], [some 0], [some 1], [true], [(0, 1)], [.line ⟨0, 0⟩ ⟨0, 1⟩], [], []⟩, ?_, ?_⟩
  · simp [Segments.addPath, subpaths, takeSubpath, Segments.addSubpaths, Segments.addSubpath, kurboSegments,
      kurboStep, bezItems, Pt.le, Pt.lt, Segments.pushItems, Segments.pushItem, Segments.len,
      Segments.empty, Segments.orientedStart, Segments.orientedEnd, Seg.start, Seg.stop]
  · exact ⟨rfl, rfl, rfl⟩

/-- `add_bez_path` succeeds only if every subpath with a piece is closed. -/
theorem C18_success_means_closed (s s' : Segments K) (hs : Lens s) (p : List (PathEl K))
    (h : s.addPath zero one mono atY true p = .ok s') :
    ∃ cs, (Op.addPath true p).contours mono = some cs ∧ ∀ x ∈ cs, x.1 = [] ∨ x.2 = .cycle := by
  have h1 := subpaths_refines zero one mono true (subpaths p) s hs
  simp only [Segments.addPath] at h
  cases hr : s.addSubpaths zero one mono true (subpaths p) with
  | ok s1 =>
    rw [hr] at h1
    obtain ⟨cs, q1, q2, _⟩ := h1
    exact ⟨cs, q1, q2 rfl⟩
  | err a b s1 => rw [hr] at h; simp at h
  | panic => rw [hr] at h; simp at h

/-! ## Non-vacuity -/

/-- A history: a closed triangle, an open polyline, a path with two closed subpaths. -/
def sampleOps : List (Op Nat) :=
  [.addClosedPolyline [⟨0, 0⟩, ⟨4, 0⟩, ⟨2, 3⟩], .addPoints [⟨1, 1⟩, ⟨5, 5⟩, ⟨0, 2⟩],
   .addPath true [.moveTo ⟨0, 0⟩, .lineTo ⟨3, 3⟩, .closePath, .moveTo ⟨7, 7⟩, .lineTo ⟨8, 8⟩, .lineTo ⟨7, 8⟩,
     .lineTo ⟨7, 7⟩]]

/-- The hypothesis of C13–C17 is met (no error, no panic), and the contours are as expected. -/
example : (runOps 0 1 (fun _ => []) (fun g _ => g.start.x) Segments.empty sampleOps).isSome = true := by
  simp [sampleOps, runOps, stepOp, Segments.addPath, subpaths, takeSubpath, Segments.addSubpaths,
    Segments.addSubpath, kurboSegments, kurboStep, bezItems, Pt.le, Pt.lt, Segments.pushItems,
    Segments.pushItem, Segments.len, Segments.addClosedPolyline, Segments.addPolylineRaw,
    Segments.addPoints, Segments.updateEnterExit, cyclicPairs, pairs, polyItem, setLast,
    Segments.empty, Segments.orientedStart, Segments.orientedEnd, Seg.start, Seg.stop]

example : historyContours (fun _ => []) sampleOps = some
    [([(⟨0, 0⟩, ⟨4, 0⟩), (⟨4, 0⟩, ⟨2, 3⟩), (⟨2, 3⟩, ⟨0, 0⟩)], .cycle),
     ([(⟨1, 1⟩, ⟨5, 5⟩), (⟨5, 5⟩, ⟨0, 2⟩)], .chain),
     ([(⟨0, 0⟩, ⟨3, 3⟩), (⟨3, 3⟩, ⟨0, 0⟩)], .cycle),
     ([(⟨7, 7⟩, ⟨8, 8⟩), (⟨8, 8⟩, ⟨7, 8⟩), (⟨7, 8⟩, ⟨7, 7⟩)], .cycle)] := by
  simp [historyContours, allSome, sampleOps, Op.contours, closedEdges, openEdges, subpaths, takeSubpath,
    subpathContour, kurboSegments, kurboStep, segEdges, closedLoop]

/-- C14: the hypothesis on `monotonic_pieces` is satisfiable (one piece per curve). -/
example : MonoLeads (fun g : PathSeg Nat => match g with
    | .quad p0 p1 p2 => [(⟨p0, p1, p1, p2⟩, 0, 1)]
    | .cubic p0 p1 p2 p3 => [(⟨p0, p1, p2, p3⟩, 0, 1)]
    | .line _ _ => []) :=
  ⟨fun _ _ _ => ⟨rfl, rfl⟩, fun _ _ _ _ => ⟨rfl, rfl⟩⟩

/-- C17: a history with a dangling contour. -/
example : historyContours (fun _ => []) [Op.addPath false [.moveTo ⟨0, 0⟩, .lineTo (⟨3, 3⟩ : Pt Nat)]] =
    some ([] ++ ([(⟨0, 0⟩, ⟨3, 3⟩)], .dangling) :: []) := by
  simp [historyContours, allSome, Op.contours, subpaths, takeSubpath, subpathContour, kurboSegments, kurboStep,
    segEdges, closedLoop]

end Verif.Segs
