import Verif.Segs.Spec

/-! The calls refine "append these contours". -/

namespace Verif.Segs

variable {K : Type}

theorem pairs_eq {α : Type} (ps : List α) : pairs ps = ps.zip ps.tail := by
  induction ps with
  | nil => rfl
  | cons a ps ih =>
    cases ps with
    | nil => rfl
    | cons b rest => simp only [pairs, ih]; simp

theorem zip_append_last {α : Type} (ps : List α) (x : α) :
    ∀ a, (a :: ps).zip (ps ++ [x]) = (a :: ps).zip ps ++ [((a :: ps).getLast (by simp), x)] := by
  induction ps with
  | nil => intro a; simp
  | cons b ps ih => intro a; simp [ih b]

theorem cyclicPairs_eq (ps : List (Pt K)) (h : 1 < ps.length) : cyclicPairs ps = closedEdges ps := by
  simp only [cyclicPairs, closedEdges, if_neg (show ¬ ps.length ≤ 1 by omega), pairs_eq]
  match ps, h with
  | a :: b :: rest, _ =>
    have := zip_append_last (b :: rest) a a
    simp only [List.tail_cons, List.take_succ_cons, List.take_zero]
    rw [this]
    congr 1

/-- All fields but the schedules agree. -/
def SameArrays (s t : Segments K) : Prop :=
  s.segs = t.segs ∧ s.orientation = t.orientation ∧ s.contourPrev = t.contourPrev ∧
  s.contourNext = t.contourNext ∧ s.splitFromPredecessor = t.splitFromPredecessor ∧
  s.inputSegs = t.inputSegs

theorem SameArrays.trans {a b c : Segments K} (h1 : SameArrays a b) (h2 : SameArrays b c) :
    SameArrays a c := by
  obtain ⟨a1, a2, a3, a4, a5, a6⟩ := h1
  obtain ⟨b1, b2, b3, b4, b5, b6⟩ := h2
  exact ⟨a1.trans b1, a2.trans b2, a3.trans b3, a4.trans b4, a5.trans b5, a6.trans b6⟩

theorem SameArrays.refl (s : Segments K) : SameArrays s s := ⟨rfl, rfl, rfl, rfl, rfl, rfl⟩

theorem SameArrays.len {s t : Segments K} (h : SameArrays s t) : s.len = t.len := by
  simp [Segments.len, h.1]

theorem SameArrays.lens {s t : Segments K} (h : SameArrays s t) (ht : Lens t) : Lens s := by
  obtain ⟨h1, h2, h3, h4, h5, h6⟩ := h
  simp only [Lens, Segments.len, h1, h2, h3, h4, h5, h6] at *
  exact ht

theorem SameArrays.appendBlock {s t : Segments K} (h : SameArrays s t) (b : List (Item K) × Kind) :
    SameArrays (appendBlock s b) (Verif.Segs.appendBlock t b) := by
  have hl := h.len
  obtain ⟨h1, h2, h3, h4, h5, h6⟩ := h
  simp [SameArrays, Verif.Segs.appendBlock, h1, h2, h3, h4, h5, h6, hl]

theorem SameArrays.appendBlocks (bs : List (List (Item K) × Kind)) : ∀ {s t : Segments K},
    SameArrays s t → SameArrays (appendBlocks s bs) (Verif.Segs.appendBlocks t bs) := by
  induction bs with
  | nil => intro s t h; exact h
  | cons b bs ih => intro s t h; exact ih (h.appendBlock b)

theorem appendBlock_sched (s : Segments K) (b : List (Item K) × Kind) :
    (appendBlock s b).enter = s.enter ∧ (appendBlock s b).exit = s.exit := ⟨rfl, rfl⟩

theorem appendBlocks_sched (bs : List (List (Item K) × Kind)) : ∀ s : Segments K,
    (appendBlocks s bs).enter = s.enter ∧ (appendBlocks s bs).exit = s.exit := by
  induction bs with
  | nil => intro s; exact ⟨rfl, rfl⟩
  | cons b bs ih => intro s; exact ih (appendBlock s b)

section
variable [LinearOrder K]

theorem update_arrays (atY : Seg K → K → K) (s : Segments K) (n : Nat) :
    SameArrays (s.updateEnterExit atY n) s := ⟨rfl, rfl, rfl, rfl, rfl, rfl⟩

theorem enterLe_trans (atY : Seg K → K → K) (segs : List (Seg K)) (a b c : K × Nat)
    (h1 : enterLe atY segs a b = true) (h2 : enterLe atY segs b c = true) :
    enterLe atY segs a c = true := by
  simp only [enterLe, Bool.or_eq_true, Bool.and_eq_true, decide_eq_true_eq] at *
  rcases h1 with h1 | ⟨h1, h1'⟩ <;> rcases h2 with h2 | ⟨h2, h2'⟩
  · exact .inl (lt_trans h1 h2)
  · exact .inl (by rw [← h2]; exact h1)
  · exact .inl (by rw [h1]; exact h2)
  · exact .inr ⟨h1.trans h2, by rw [← h1] at h2'; exact le_trans h1' h2'⟩

theorem enterLe_total (atY : Seg K → K → K) (segs : List (Seg K)) (a b : K × Nat) :
    (enterLe atY segs a b || enterLe atY segs b a) = true := by
  simp only [enterLe, Bool.or_eq_true, Bool.and_eq_true, decide_eq_true_eq]
  rcases lt_trichotomy a.1 b.1 with h | h | h
  · exact .inl (.inl h)
  · rcases le_total (xAt atY segs a.2 a.1) (xAt atY segs b.2 a.1) with h2 | h2
    · exact .inl (.inr ⟨h, h2⟩)
    · exact .inr (.inr ⟨h.symm, by rw [← h]; exact h2⟩)
  · exact .inr (.inl h)

/-- `update_enter_exit` restores the schedules after new segments were appended. -/
theorem update_scheduled (atY : Seg K → K → K) (s0 s : Segments K) (h0 : Scheduled atY s0)
    (hf : ∃ l, s.segs = s0.segs ++ l) (he : s.enter = s0.enter) (hx : s.exit = s0.exit) :
    Scheduled atY (s.updateEnterExit atY s0.len) := by
  obtain ⟨l, hl⟩ := hf
  have hz : s.segs.zipIdx = s0.segs.zipIdx ++ s.segs.zipIdx.drop s0.len := by
    have e1 : s.segs.zipIdx.take s0.len = s0.segs.zipIdx := by
      rw [hl, List.zipIdx_append, List.take_append_of_le_length (by simp [Segments.len])]
      rw [List.take_of_length_le (by simp [Segments.len])]
    rw [← e1, List.take_append_drop]
  refine ⟨?_, ?_, ?_, ?_⟩
  · refine (List.mergeSort_perm _ _).trans ?_
    show List.Perm _ (s.segs.zipIdx.map fun g => (g.1.start.y, g.2))
    conv => rhs; rw [hz, List.map_append]
    rw [he]
    exact List.Perm.append_right _ h0.enter_perm
  · refine (List.mergeSort_perm _ _).trans ?_
    show List.Perm _ ((s.segs.zipIdx.filter fun g => !g.1.isHorizontal).map fun g => (g.1.stop.y, g.2))
    conv => rhs; rw [hz, List.filter_append, List.map_append]
    rw [hx]
    exact List.Perm.append_right _ h0.exit_perm
  · have := List.pairwise_mergeSort (le := enterLe atY s.segs) (enterLe_trans atY s.segs)
      (enterLe_total atY s.segs) (s.enter ++ (s.segs.zipIdx.drop s0.len).map fun g => (g.1.start.y, g.2))
    refine List.Pairwise.imp ?_ this
    intro a b hab
    simp only [enterLe, Bool.or_eq_true, Bool.and_eq_true, decide_eq_true_eq] at hab
    rcases hab with h | ⟨h1, h2⟩
    · exact .inl h
    · refine .inr ⟨h1, ?_⟩
      intro ga gb hga hgb
      have e1 : s.segs[a.2]? = some ga := hga
      have e2 : s.segs[b.2]? = some gb := hgb
      simpa [xAt, e1, e2] using h2
  · have := List.pairwise_mergeSort (le := fun a b : K × Nat => decide (a.1 ≤ b.1))
      (by intro a b c h1 h2; simp at *; exact le_trans h1 h2)
      (by intro a b; simp; exact le_total _ _)
      (s.exit ++ ((s.segs.zipIdx.drop s0.len).filter fun g => !g.1.isHorizontal).map
        fun g => (g.1.stop.y, g.2))
    exact List.Pairwise.imp (by intro a b h; simpa using h) this

variable (zero one : K) (mono : PathSeg K → List (Cubic K × K × K)) (atY : Seg K → K → K)

/-- What a successful call does: appends blocks describing the call's contours. -/
def Refines (s s' : Segments K) (cs : List (List (Pt K × Pt K) × Kind)) : Prop :=
  ∃ bs : List (List (Item K) × Kind), cs = bs.map (fun b => (b.1.map Item.ends, b.2)) ∧
    (∀ b ∈ bs, ∀ it ∈ b.1, it.Ok) ∧ SameArrays s' (appendBlocks s bs)

theorem Refines.frame {s s' : Segments K} {cs} (h : Refines s s' cs) : Frame s s' := by
  obtain ⟨bs, _, _, h⟩ := h
  have hf := frame_appendBlocks bs s
  obtain ⟨h1, h2, h3, h4, h5, h6⟩ := h
  simp only [Frame, h1, h2, h3, h4, h5, h6]; exact hf

theorem Refines.lens {s s' : Segments K} {cs} (h : Refines s s' cs) (hs : Lens s) : Lens s' := by
  obtain ⟨bs, _, _, h⟩ := h
  exact h.lens (lens_appendBlocks hs)

theorem Refines.nil (s : Segments K) (k : Kind) : Refines s s [([], k)] :=
  ⟨[([], k)], by simp, by simp, by
    show SameArrays s (appendBlock s ([], k)); rw [appendBlock_nil]; exact SameArrays.refl s⟩

theorem Refines.comp {a b c : Segments K} {cs ds} (h1 : Refines a b cs) (h2 : Refines b c ds) :
    Refines a c (cs ++ ds) := by
  obtain ⟨bs, e1, o1, s1⟩ := h1
  obtain ⟨bs', e2, o2, s2⟩ := h2
  refine ⟨bs ++ bs', by simp [e1, e2], ?_, ?_⟩
  · intro x hx; rw [List.mem_append] at hx
    rcases hx with hx | hx
    · exact o1 x hx
    · exact o2 x hx
  · rw [appendBlocks_append]
    exact s2.trans (SameArrays.appendBlocks bs' s1)

theorem map_polyItem (es : List (Pt K × Pt K)) :
    (es.map (polyItem zero one)).map Item.ends = es ∧ ∀ it ∈ es.map (polyItem zero one), it.Ok := by
  constructor
  · rw [List.map_map]
    have : Item.ends ∘ polyItem zero one = id := by
      funext e; exact (polyItem_ok zero one e).2
    rw [this]; simp
  · intro it hit
    rw [List.mem_map] at hit
    obtain ⟨e, _, rfl⟩ := hit
    exact (polyItem_ok zero one e).1

theorem refines_block (s : Segments K) (es : List (Pt K × Pt K)) (k : Kind) :
    Refines s (appendBlock s (es.map (polyItem zero one), k)) [(es, k)] :=
  ⟨[(es.map (polyItem zero one), k)], by simp [(map_polyItem zero one es).1], by
    intro b hb; simp only [List.mem_singleton] at hb; subst hb
    exact (map_polyItem zero one es).2, SameArrays.refl _⟩

theorem raw_refines (s : Segments K) (hs : Lens s) (ps : List (Pt K)) :
    Refines s (s.addPolylineRaw zero one ps) [(closedEdges ps, .cycle)] ∧
    (s.addPolylineRaw zero one ps).enter = s.enter ∧ (s.addPolylineRaw zero one ps).exit = s.exit := by
  by_cases h : 1 < ps.length
  · rw [addPolylineRaw_eq zero one s hs ps h, cyclicPairs_eq ps h]
    exact ⟨refines_block zero one s _ _, rfl, rfl⟩
  · have h' : ps.length ≤ 1 := by omega
    simp only [Segments.addPolylineRaw, if_pos h', closedEdges]
    exact ⟨Refines.nil s _, trivial, trivial⟩

theorem raws_refines (pss : List (List (Pt K))) : ∀ (s : Segments K), Lens s →
    Refines s (pss.foldl (Segments.addPolylineRaw zero one) s) (pss.map fun ps => (closedEdges ps, .cycle)) ∧
    (pss.foldl (Segments.addPolylineRaw zero one) s).enter = s.enter ∧
    (pss.foldl (Segments.addPolylineRaw zero one) s).exit = s.exit := by
  induction pss with
  | nil => intro s _; exact ⟨⟨[], rfl, by simp, SameArrays.refl s⟩, rfl, rfl⟩
  | cons ps pss ih =>
    intro s hs
    obtain ⟨h1, h2, h3⟩ := raw_refines zero one s hs ps
    obtain ⟨g1, g2, g3⟩ := ih (s.addPolylineRaw zero one ps) (h1.lens hs)
    exact ⟨h1.comp g1, g2.trans h2, g3.trans h3⟩

theorem flatMap_bezItems (gs : List (PathSeg K)) :
    (∀ it ∈ gs.flatMap (bezItems zero one mono), it.Ok) ∧
    (gs.flatMap (bezItems zero one mono)).map Item.ends = gs.flatMap (segEdges mono) := by
  constructor
  · intro it hit
    rw [List.mem_flatMap] at hit
    obtain ⟨g, _, h⟩ := hit
    exact (bezItems_ok zero one mono g).1 it h
  · rw [List.map_flatMap]
    congr 1
    funext g
    exact (bezItems_ok zero one mono g).2

/-- One subpath: what each outcome means. -/
theorem subpath_refines (c : Bool) (s : Segments K) (hs : Lens s) (sub : List (PathEl K)) :
    match s.addSubpath zero one mono c sub with
    | .ok s' => ∃ es k, subpathContour mono sub = some (es, k) ∧ (c = true → es = [] ∨ k = .cycle) ∧
        Refines s s' [(es, k)] ∧ s'.enter = s.enter ∧ s'.exit = s.exit
    | .err a b s' => c = true ∧ ∃ es, subpathContour mono sub = some (es, .dangling) ∧
        Refines s s' [(es, .dangling)] ∧ s'.enter = s.enter ∧ s'.exit = s.exit ∧
        es.head?.map Prod.fst = some a ∧ es.getLast?.map Prod.snd = some b ∧ a ≠ b
    | .panic => subpathContour mono sub = none := by
  simp only [Segments.addSubpath, subpathContour]
  cases hk : kurboSegments none sub with
  | none => simp
  | some gs =>
    simp only [Option.map_some]
    have hfix := fixup_eq s hs (gs.flatMap (bezItems zero one mono)) .cycle
    have hno := nofix_eq s (gs.flatMap (bezItems zero one mono))
    obtain ⟨hok, hends⟩ := flatMap_bezItems zero one mono gs
    rw [← hends]
    generalize gs.flatMap (bezItems zero one mono) = its at *
    rw [len_pushItems]
    by_cases hne : its = []
    · subst hne
      simp only [List.length_nil, Nat.add_zero, Nat.lt_irrefl, if_false, List.map_nil, closedLoop,
        List.head?_nil, if_true]
      refine ⟨[], .cycle, rfl, fun _ => .inl rfl, ?_, rfl, rfl⟩
      exact Refines.nil s _
    · have hpos : 0 < its.length := List.length_pos_iff.2 hne
      rw [if_pos (by omega)]
      obtain ⟨f, hf⟩ : ∃ f, its[0]? = some f := ⟨its[0], by simp [hpos]⟩
      obtain ⟨l, hl⟩ : ∃ l, its[its.length - 1]? = some l := ⟨its[its.length - 1], by simp⟩
      have b1 := (block_lookup hs (its, .dangling) hf).2.2.2.2.1
      have b2 := (block_lookup hs (its, .dangling) hl).2.2.2.2.2.1
      rw [← hno] at b1 b2
      have e1 : s.len + 0 = s.len := rfl
      have e2 : s.len + (its.length - 1) = s.len + its.length - 1 := by omega
      rw [e1] at b1
      rw [e2] at b2
      simp only [b1, b2]
      have hhead : (its.map Item.ends).head? = some f.ends := by
        rw [List.head?_map, List.head?_eq_getElem?, hf]; rfl
      have hlast : (its.map Item.ends).getLast? = some l.ends := by
        rw [List.getLast?_map, List.getLast?_eq_getElem?, hl]; rfl
      have hloop : closedLoop (its.map Item.ends) = decide (f.ends.1 = l.ends.2) := by
        simp only [closedLoop, hhead, hlast]
      rw [hloop]
      by_cases hc : f.ends.1 = l.ends.2
      · simp only [hc, if_true, decide_true]
        refine ⟨_, .cycle, rfl, fun _ => .inr rfl, ?_, ?_, ?_⟩
        · have := hfix hne
          simp only [firstPrev, lastNext] at this
          rw [this]
          exact ⟨[(its, .cycle)], rfl, by
            intro b hb; simp only [List.mem_singleton] at hb; subst hb; exact hok,
            SameArrays.refl _⟩
        · simp [pushItems_eq]
        · simp [pushItems_eq]
      · simp only [hc, if_false, decide_false, Bool.false_eq_true]
        have href : Refines s (s.pushItems its) [(its.map Item.ends, .dangling)] := by
          rw [hno]
          exact ⟨[(its, .dangling)], rfl, by
            intro b hb; simp only [List.mem_singleton] at hb; subst hb; exact hok,
            SameArrays.refl _⟩
        cases c with
        | true =>
          refine ⟨rfl, _, rfl, href, by simp [pushItems_eq], by simp [pushItems_eq], ?_, ?_, hc⟩
          · rw [hhead]; rfl
          · rw [hlast]; rfl
        | false =>
          exact ⟨_, .dangling, rfl, by simp, href, by simp [pushItems_eq], by simp [pushItems_eq]⟩

theorem subpaths_refines (c : Bool) (subs : List (List (PathEl K))) : ∀ (s : Segments K), Lens s →
    match s.addSubpaths zero one mono c subs with
    | .ok s' => ∃ cs, allSome (subpathContour mono) subs = some cs ∧
        (c = true → ∀ x ∈ cs, x.1 = [] ∨ x.2 = .cycle) ∧ (∀ x ∈ cs, x.2 ≠ .chain) ∧
        Refines s s' cs ∧ s'.enter = s.enter ∧ s'.exit = s.exit
    | .err a b s' => c = true ∧ ∃ cs, Refines s s' cs ∧ s'.enter = s.enter ∧ s'.exit = s.exit ∧
        (∃ x ∈ cs, x.2 = .dangling ∧ x.1.head?.map Prod.fst = some a ∧
          x.1.getLast?.map Prod.snd = some b) ∧ a ≠ b
    | .panic => allSome (subpathContour mono) subs = none := by
  induction subs with
  | nil =>
    intro s _
    exact ⟨[], rfl, by simp, by simp, ⟨[], rfl, by simp, SameArrays.refl s⟩, rfl, rfl⟩
  | cons sub subs ih =>
    intro s hs
    have h1 := subpath_refines zero one mono c s hs sub
    simp only [Segments.addSubpaths]
    cases hr : s.addSubpath zero one mono c sub with
    | ok s' =>
      rw [hr] at h1
      obtain ⟨es, k, q1, q2, q3, q4, q5⟩ := h1
      have hk : k ≠ .chain := by
        simp only [subpathContour, Option.map_eq_some_iff] at q1
        obtain ⟨gs, _, e⟩ := q1
        have := (Prod.mk.inj e).2
        rw [← this]; split <;> simp
      have h2 := ih s' (q3.lens hs)
      cases hr2 : s'.addSubpaths zero one mono c subs with
      | ok s'' =>
        rw [hr2] at h2
        simp only [hr2]
        obtain ⟨cs, p1, p2, p6, p3, p4, p5⟩ := h2
        refine ⟨(es, k) :: cs, by simp [allSome, q1, p1], ?_, ?_, q3.comp p3, p4.trans q4, p5.trans q5⟩
        · intro hc x hx
          rw [List.mem_cons] at hx
          rcases hx with rfl | hx
          · exact q2 hc
          · exact p2 hc x hx
        · intro x hx
          rw [List.mem_cons] at hx
          rcases hx with rfl | hx
          · exact hk
          · exact p6 x hx
      | err a b s'' =>
        rw [hr2] at h2
        simp only [hr2]
        obtain ⟨hc, cs, p3, p4, p5, ⟨x, hx, p6⟩, p7⟩ := h2
        exact ⟨hc, _, q3.comp p3, p4.trans q4, p5.trans q5, ⟨x, by simp [hx], p6⟩, p7⟩
      | panic =>
        rw [hr2] at h2
        simp only [hr2] at h2 ⊢
        simp [allSome, h2]
    | err a b s' =>
      rw [hr] at h1
      obtain ⟨hc, es, q1, q2, q3, q4, q5, q6, q7⟩ := h1
      exact ⟨hc, _, q2, q3, q4, ⟨_, List.mem_singleton.2 rfl, rfl, q5, q6⟩, q7⟩
    | panic =>
      rw [hr] at h1
      simp only at h1; simp [allSome, h1]

/-- Every successful call appends exactly its contours and keeps the schedules right. -/
theorem step_refines (s s' : Segments K) (hs : Lens s) (op : Op K)
    (h : stepOp zero one mono atY s op = some s') :
    ∃ cs, op.contours mono = some cs ∧ Refines s s' cs ∧ (Scheduled atY s → Scheduled atY s') := by
  cases op with
  | addPoints ps =>
    simp only [stepOp, Option.some.injEq] at h
    subst h
    by_cases hl : 1 < ps.length
    · rw [addPoints_eq zero one atY s hs ps hl]
      refine ⟨_, rfl, ?_, ?_⟩
      · obtain ⟨bs, e1, e2, e3⟩ := refines_block zero one s (pairs ps) .chain
        rw [pairs_eq] at e1
        exact ⟨bs, e1, e2, (update_arrays atY _ _).trans e3⟩
      · intro hsch
        exact update_scheduled atY s _ hsch ⟨_, rfl⟩ rfl rfl
    · have hl' : ps.length ≤ 1 := by omega
      have e : s.addPoints zero one atY ps = s := by simp [Segments.addPoints, hl']
      rw [e]
      refine ⟨_, rfl, ?_, id⟩
      have : openEdges ps = [] := by
        match ps, hl' with
        | [], _ => rfl
        | [a], _ => rfl
      rw [this]; exact Refines.nil s _
  | addClosedPolyline ps =>
    simp only [stepOp, Option.some.injEq] at h
    subst h
    obtain ⟨h1, h2, h3⟩ := raw_refines zero one s hs ps
    refine ⟨_, rfl, ?_, ?_⟩
    · obtain ⟨bs, e1, e2, e3⟩ := h1
      exact ⟨bs, e1, e2, (update_arrays atY _ _).trans e3⟩
    · intro hsch
      exact update_scheduled atY s _ hsch h1.frame.1 h2 h3
  | addClosedPolylines pss =>
    simp only [stepOp, Option.some.injEq] at h
    subst h
    obtain ⟨h1, h2, h3⟩ := raws_refines zero one pss s hs
    refine ⟨_, rfl, ?_, ?_⟩
    · obtain ⟨bs, e1, e2, e3⟩ := h1
      exact ⟨bs, e1, e2, (update_arrays atY _ _).trans e3⟩
    · intro hsch
      exact update_scheduled atY s _ hsch h1.frame.1 h2 h3
  | addPath c p =>
    have h1 := subpaths_refines zero one mono c (subpaths p) s hs
    simp only [stepOp, Segments.addPath] at h
    cases hr : s.addSubpaths zero one mono c (subpaths p) with
    | ok s1 =>
      rw [hr] at h h1
      simp only [Option.some.injEq] at h
      subst h
      obtain ⟨cs, q1, q2, _, q3, q4, q5⟩ := h1
      refine ⟨cs, q1, ?_, ?_⟩
      · obtain ⟨bs, e1, e2, e3⟩ := q3
        exact ⟨bs, e1, e2, (update_arrays atY _ _).trans e3⟩
      · intro hsch
        exact update_scheduled atY s _ hsch q3.frame.1 q4 q5
    | err a b s1 => rw [hr] at h; simp at h
    | panic => rw [hr] at h; simp at h

theorem run_refines (ops : List (Op K)) : ∀ (s s' : Segments K), Lens s →
    runOps zero one mono atY s ops = some s' →
    ∃ cs, historyContours mono ops = some cs ∧ Refines s s' cs ∧ (Scheduled atY s → Scheduled atY s') := by
  induction ops with
  | nil =>
    intro s s' _ h
    simp only [runOps, Option.some.injEq] at h
    subst h
    exact ⟨[], rfl, ⟨[], rfl, by simp, SameArrays.refl s⟩, id⟩
  | cons op ops ih =>
    intro s s' hs h
    simp only [runOps] at h
    cases hst : stepOp zero one mono atY s op with
    | none => rw [hst] at h; simp at h
    | some s1 =>
      rw [hst] at h
      simp only at h
      obtain ⟨cs, h1, h2, h3⟩ := step_refines zero one mono atY s s1 hs op hst
      obtain ⟨ds, g1, g2, g3⟩ := ih s1 s' (h2.lens hs) h
      refine ⟨cs ++ ds, ?_, h2.comp g2, fun x => g3 (h3 x)⟩
      simp only [historyContours, Option.map_eq_some_iff] at g1 ⊢
      obtain ⟨dss, e1, e2⟩ := g1
      exact ⟨cs :: dss, by simp [allSome, h1, e1], by simp [e2]⟩

end

theorem lens_empty : Lens (Segments.empty : Segments K) := by
  simp [Lens, Segments.empty, Segments.len]

theorem scheduled_empty [LinearOrder K] (atY : Seg K → K → K) :
    Scheduled atY (Segments.empty : Segments K) :=
  ⟨by simp [Segments.empty], by simp [Segments.empty], by simp [Segments.empty], by simp [Segments.empty]⟩

end Verif.Segs
