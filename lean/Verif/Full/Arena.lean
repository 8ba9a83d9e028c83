import Verif.Full.Model
import Verif.Segs.Props
import Verif.Segs.Origin

/-! # The arena that `from_paths` and `from_polylines_binary` build -/

namespace Verif.Full
open Verif.Segs (Segments PathSeg PathEl Kind Refines Leads Adds Origin baseOf Scheduled Lens)
set_option linter.unusedSectionVars false

/-- What is stored for a curve is a monotone cubic, and every segment starts at or before its end. -/
def Fine (g : Segs.Seg ℝ) : Prop :=
  g.start.le g.stop ∧ ∀ p0 p1 p2 p3, g = .cubic p0 p1 p2 p3 → (cubic ⟨p0, p1, p2, p3⟩).Mono

/-- The arena as the sweep needs it. -/
structure Arena {T : Type} (s : Segments ℝ) (tags : List T) : Prop where
  sched : Scheduled atY s
  lens : Lens s
  tagged : tags.length = s.len
  fine : ∀ g ∈ s.segs, Fine g
  next : ∀ i < s.len, ∃ j < s.len, s.next i = some (some j) ∧ s.prev j = some (some i) ∧ (∃ p, s.orientedEnd i = some p ∧ s.orientedStart j = some p) ∧
    tags[j]? = tags[i]?
  prev : ∀ i < s.len, ∃ j < s.len, s.prev i = some (some j) ∧ s.next j = some (some i)

/-! ## The pieces of a curve -/

theorem pt_unpt (p : Geom.Pt) : pt (unpt p) = p := rfl
theorem unpt_pt (p : Segs.Pt ℝ) : unpt (pt p) = p := rfl
theorem cubic_uncubic (c : Geom.Cubic) : cubic (uncubic c) = c := rfl

theorem chain_leads (c : Geom.Cubic) (l : List Geom.MonoPiece) : ∀ u, Geom.Chain c u l →
    Leads (unpt (c.eval u)) (unpt (c.eval 1)) (l.map fun m => (unpt m.piece.p0, unpt m.piece.p3)) := by
  induction l with
  | nil => intro u h; simp only [Geom.Chain] at h; subst h; rfl
  | cons p ps ih =>
    rintro u ⟨h1, h2, h3, h4, h5⟩
    refine ⟨?_, ?_⟩
    · rw [h3, ← h1]; rfl
    · have := ih _ h5
      rw [h3]
      exact this

theorem pieces_leads (c : Geom.Cubic) :
    Leads (unpt c.p0) (unpt c.p3) ((Geom.monotonicPieces c).map fun m => (unpt m.piece.p0, unpt m.piece.p3)) := by
  by_cases hf : c.NotFlat
  · have := chain_leads c _ 0 (Geom.piecesFrom_chain hf _ 0 zero_lt_one (Geom.speedRoots_ok c).1).1
    rw [Geom.Cubic.eval_zero, Geom.Cubic.eval_one] at this
    exact this
  · obtain ⟨h1, h2⟩ := Geom.C65_flat c hf
    by_cases he : c.p0 = c.p3
    · rw [h2 he, he]; rfl
    · obtain ⟨q, e, e0, e3, _⟩ := h1 he
      rw [e, List.map_cons, List.map_nil, e0, e3]
      exact ⟨rfl, rfl⟩

theorem mono_leads : Segs.MonoLeads mono := by
  constructor
  · intro p0 p1 p2
    have := pieces_leads (toCubic (.quad p0 p1 p2))
    simp only [Segs.segEdges, mono, List.map_map]
    exact this
  · intro p0 p1 p2 p3
    have := pieces_leads (toCubic (.cubic p0 p1 p2 p3))
    simp only [Segs.segEdges, mono, List.map_map]
    exact this

theorem chain_mono (c : Geom.Cubic) (l : List Geom.MonoPiece) : ∀ u, Geom.Chain c u l → ∀ m ∈ l, m.piece.Mono ∨ m.piece.rev.Mono := by
  induction l with
  | nil => intro u _ m hm; simp at hm
  | cons p ps ih =>
    rintro u ⟨h1, h2, h3, h4, h5⟩ m hm
    rcases List.mem_cons.1 hm with rfl | hm
    · exact h4
    · exact ih _ h5 m hm

/-- A piece goes strictly up or down, unless its ends are at the same height. -/
theorem mono_pieces (g : PathSeg ℝ) (m : Segs.Cubic ℝ × ℝ × ℝ) (hm : m ∈ mono g) :
    m.1.p0.y = m.1.p3.y ∨ (cubic m.1).Mono ∨ (cubic m.1).rev.Mono := by
  obtain ⟨q, hq, rfl⟩ := List.mem_map.1 hm
  by_cases hf : (toCubic g).NotFlat
  · exact .inr (chain_mono _ _ 0 (Geom.piecesFrom_chain hf _ 0 zero_lt_one (Geom.speedRoots_ok _).1).1 q hq)
  · left
    obtain ⟨h1, h2⟩ := Geom.C65_flat _ hf
    by_cases he : (toCubic g).p0 = (toCubic g).p3
    · rw [h2 he] at hq; simp at hq
    · obtain ⟨q', e, e0, e3, _⟩ := h1 he
      rw [e, List.mem_singleton] at hq
      subst hq
      change q'.p0.y = q'.p3.y
      rw [e0, e3]
      unfold Geom.Cubic.NotFlat at hf
      rw [not_not] at hf
      rw [hf.1, hf.2.1, hf.2.2]

theorem pt_le_of_mono {c : Segs.Cubic ℝ} (h : (cubic c).rev.Mono) : ¬ c.p0.le c.p3 := by
  have hy : c.p3.y < c.p0.y := h.1
  rintro (h' | h')
  · rcases h' with h' | h'
    · exact absurd h' (not_lt.2 hy.le)
    · exact absurd h'.1 hy.ne'
  · rw [h'] at hy; exact lt_irrefl _ hy

theorem bezItems_fine (g : PathSeg ℝ) (it : Segs.Item ℝ) (hit : it ∈ Segs.bezItems 0 1 mono g) : Fine it.seg := by
  have hle := (Segs.bezItems_ok 0 1 mono g).1 it hit
  refine ⟨hle, ?_⟩
  have curve : ∀ m ∈ mono g, it = (if m.1.p0.le m.1.p3 then (⟨Segs.Seg.monotonicCubic m.1.p0 m.1.p1 m.1.p2 m.1.p3, true, m.2, g⟩ : Segs.Item ℝ)
      else ⟨Segs.Seg.monotonicCubic m.1.p3 m.1.p2 m.1.p1 m.1.p0, false, m.2, g⟩) →
      ∀ p0 p1 p2 p3, it.seg = .cubic p0 p1 p2 p3 → (cubic ⟨p0, p1, p2, p3⟩).Mono := by
    intro m hm he p0 p1 p2 p3 hs
    have hp := mono_pieces g m hm
    by_cases hl : m.1.p0.le m.1.p3
    · rw [if_pos hl] at he
      rw [he] at hs
      change Segs.Seg.monotonicCubic _ _ _ _ = _ at hs
      unfold Segs.Seg.monotonicCubic at hs
      by_cases hy : m.1.p3.y = m.1.p0.y
      · rw [if_pos hy] at hs; cases hs
      · rw [if_neg hy] at hs
        injection hs with a b c d
        subst a b c d
        rcases hp with hp | hp | hp
        · exact absurd hp.symm hy
        · exact hp
        · exact absurd hl (pt_le_of_mono hp)
    · rw [if_neg hl] at he
      rw [he] at hs
      change Segs.Seg.monotonicCubic _ _ _ _ = _ at hs
      unfold Segs.Seg.monotonicCubic at hs
      by_cases hy : m.1.p0.y = m.1.p3.y
      · rw [if_pos hy] at hs; cases hs
      · rw [if_neg hy] at hs
        injection hs with a b c d
        subst a b c d
        rcases hp with hp | hp | hp
        · exact absurd hp hy
        · have : m.1.p0.y < m.1.p3.y := hp.1
          exact absurd (.inl (.inl this)) hl
        · exact hp
  cases g with
  | line p q =>
    simp only [Segs.bezItems] at hit
    by_cases hl : p.le q
    · simp only [hl, if_true] at hit
      by_cases he : p = q
      · simp [he] at hit
      · simp only [ne_eq, he, not_false_eq_true, if_true, List.mem_singleton] at hit
        subst hit; intro _ _ _ _ h; cases h
    · simp only [hl, if_false] at hit
      by_cases he : q = p
      · simp [he] at hit
      · simp only [ne_eq, he, not_false_eq_true, if_true, List.mem_singleton] at hit
        subst hit; intro _ _ _ _ h; cases h
  | quad p q r =>
    obtain ⟨m, hm, rfl⟩ := List.mem_map.1 hit
    exact curve m hm rfl
  | cubic p q r t =>
    obtain ⟨m, hm, rfl⟩ := List.mem_map.1 hit
    exact curve m hm rfl

theorem addSubpath_fine {c : Bool} {s s' : Segments ℝ} {sub : List (PathEl ℝ)} (hs : ∀ g ∈ s.segs, Fine g)
    (h : s.addSubpath 0 1 mono c sub = .ok s') : ∀ g ∈ s'.segs, Fine g := by
  simp only [Segments.addSubpath] at h
  cases hk : Segs.kurboSegments none sub with
  | none => rw [hk] at h; simp at h
  | some gs =>
    rw [hk] at h
    have key : ∀ g ∈ (s.pushItems (gs.flatMap (Segs.bezItems 0 1 mono))).segs, Fine g := by
      intro g hg
      rw [Segs.pushItems_eq] at hg
      simp only [List.mem_append, List.mem_map, List.mem_flatMap] at hg
      rcases hg with hg | ⟨it, ⟨q, _, hit⟩, rfl⟩
      · exact hs g hg
      · exact bezItems_fine q it hit
    simp only at h
    generalize s.pushItems (gs.flatMap (Segs.bezItems 0 1 mono)) = s1 at *
    split at h
    · split at h
      · split at h
        · cases h; exact key
        · split at h
          · simp at h
          · cases h; exact key
      · simp at h
    · cases h; exact key

theorem addSubpaths_fine {c : Bool} (subs : List (List (PathEl ℝ))) : ∀ {s s' : Segments ℝ}, (∀ g ∈ s.segs, Fine g) →
    s.addSubpaths 0 1 mono c subs = .ok s' → ∀ g ∈ s'.segs, Fine g := by
  induction subs with
  | nil => intro s s' hs h; simp only [Segments.addSubpaths] at h; cases h; exact hs
  | cons sub subs ih =>
    intro s s' hs h
    simp only [Segments.addSubpaths] at h
    cases hr : s.addSubpath 0 1 mono c sub with
    | ok s1 => rw [hr] at h; exact ih (addSubpath_fine hs hr) h
    | err a b s1 => rw [hr] at h; simp at h
    | panic => rw [hr] at h; simp at h

theorem raw_fine {s : Segments ℝ} (ps : List (Segs.Pt ℝ)) (hs : ∀ g ∈ s.segs, Fine g) : ∀ g ∈ (s.addPolylineRaw 0 1 ps).segs, Fine g := by
  simp only [Segments.addPolylineRaw]
  by_cases h : ps.length ≤ 1
  · rw [if_pos h]; exact hs
  · rw [if_neg h]
    have key : ∀ g ∈ (s.pushItems ((Segs.cyclicPairs ps).map (Segs.polyItem 0 1))).segs, Fine g := by
      intro g hg
      rw [Segs.pushItems_eq] at hg
      simp only [List.mem_append, List.mem_map] at hg
      rcases hg with hg | ⟨it, ⟨e, _, rfl⟩, rfl⟩
      · exact hs g hg
      · refine ⟨(Segs.polyItem_ok 0 1 e).1, ?_⟩
        intro p0 p1 p2 p3 h
        unfold Segs.polyItem at h
        split at h <;> cases h
    split <;> exact key

theorem raws_fine (pss : List (List (Segs.Pt ℝ))) : ∀ {s : Segments ℝ}, (∀ g ∈ s.segs, Fine g) →
    ∀ g ∈ (pss.foldl (Segments.addPolylineRaw 0 1) s).segs, Fine g := by
  induction pss with
  | nil => intro s hs; exact hs
  | cons ps pss ih => intro s hs; exact ih (raw_fine ps hs)

/-! ## Contours with tags -/

variable {T : Type}

/-- A contour with its tag. -/
abbrev CT (T : Type) := (List (Segs.Pt ℝ × Segs.Pt ℝ) × Kind) × T

def tagsOf (cs : List (CT T)) : List T := cs.flatMap fun c => List.replicate c.1.1.length c.2

/-- The arena consists of closed contours, and the tags say which path each segment comes from. -/
structure Filled (s : Segments ℝ) (tags : List T) (cs : List (CT T)) : Prop where
  refines : Refines Segments.empty s (cs.map Prod.fst)
  tags : tags = tagsOf cs
  closed : ∀ c ∈ cs, c.1.1 = [] ∨ (c.1.2 = .cycle ∧ ∃ a, Leads a a c.1.1)
  fine : ∀ g ∈ s.segs, Fine g

theorem tagsOf_length (cs : List (CT T)) : (tagsOf cs).length = baseOf (cs.map Prod.fst) := by
  induction cs with
  | nil => rfl
  | cons c cs ih => simp [tagsOf, baseOf, Function.comp_def] at ih ⊢

theorem tagsOf_append (a b : List (CT T)) : tagsOf (a ++ b) = tagsOf a ++ tagsOf b := by simp [tagsOf]

theorem tagsOf_const (ds : List (List (Segs.Pt ℝ × Segs.Pt ℝ) × Kind)) (t : T) :
    tagsOf (ds.map fun d => (d, t)) = List.replicate (baseOf ds) t := by
  induction ds with
  | nil => rfl
  | cons d ds ih =>
    have : baseOf (d :: ds) = d.1.length + baseOf ds := by simp [baseOf]
    rw [this, List.replicate_add, ← ih]
    simp [tagsOf]

theorem tagsOf_get (a b : List (CT T)) (c : CT T) (j : Nat) (hj : j < c.1.1.length) :
    (tagsOf (a ++ c :: b))[baseOf (a.map Prod.fst) + j]? = some c.2 := by
  rw [tagsOf_append, ← tagsOf_length, List.getElem?_append_right (by omega), Nat.add_sub_cancel_left]
  have : tagsOf (c :: b) = List.replicate c.1.1.length c.2 ++ tagsOf b := by simp [tagsOf]
  rw [this, List.getElem?_append_left (by simpa using hj), List.getElem?_replicate, if_pos hj]

theorem resize_append (l : List T) (n : Nat) (t : T) (h : l.length ≤ n) : resize l n t = l ++ List.replicate (n - l.length) t := by
  unfold resize
  rw [List.take_of_length_le h]

theorem Filled.len {s : Segments ℝ} {tags : List T} {cs : List (CT T)} (h : Filled s tags cs) : s.len = tags.length := by
  rw [h.tags, tagsOf_length, (Segs.refines_len h.refines).1]

theorem Filled.add {s s' : Segments ℝ} {tags : List T} {cs : List (CT T)} (h : Filled s tags cs)
    {ds : List (List (Segs.Pt ℝ × Segs.Pt ℝ) × Kind)} (hr : Refines s s' ds) (t : T)
    (hc : ∀ c ∈ ds, c.1 = [] ∨ (c.2 = .cycle ∧ ∃ a, Leads a a c.1)) (hf : ∀ g ∈ s'.segs, Fine g) :
    Filled s' (resize tags s'.len t) (cs ++ ds.map fun d => (d, t)) := by
  have hmap : (cs ++ ds.map fun d => (d, t)).map Prod.fst = cs.map Prod.fst ++ ds := by simp [Function.comp_def]
  have href : Refines Segments.empty s' ((cs ++ ds.map fun d => (d, t)).map Prod.fst) := by rw [hmap]; exact h.refines.comp hr
  have hlen := (Segs.refines_len href).1
  rw [hmap] at hlen
  have hb : baseOf (cs.map Prod.fst ++ ds) = baseOf (cs.map Prod.fst) + baseOf ds := by simp [baseOf]
  have htl : tags.length = baseOf (cs.map Prod.fst) := by rw [h.tags, tagsOf_length]
  refine ⟨href, ?_, ?_, hf⟩
  · rw [resize_append _ _ _ (by omega), tagsOf_append, tagsOf_const, h.tags]
    congr 2
    rw [h.tags] at htl
    omega
  · intro c hcm
    rcases List.mem_append.1 hcm with hcm | hcm
    · exact h.closed c hcm
    · obtain ⟨d, hd, rfl⟩ := List.mem_map.1 hcm
      exact hc d hd

/-- The links of a filled arena. -/
theorem Filled.arena {s : Segments ℝ} {tags : List T} {cs : List (CT T)} (h : Filled s tags cs) (hs : Scheduled atY s) : Arena s tags := by
  obtain ⟨hlen, hlens⟩ := Segs.refines_len h.refines
  have key : ∀ i < s.len, ∃ (a b : List (CT T)) (c : CT T) (j : Nat), cs = a ++ c :: b ∧ j < c.1.1.length ∧ i = baseOf (a.map Prod.fst) + j := by
    intro i hi
    obtain ⟨a, es, k, b, j, e, hj, hi'⟩ := Segs.index_in_contour (cs.map Prod.fst) i (by omega)
    obtain ⟨a', r, rfl, ha, hr⟩ := List.map_eq_append_iff.1 e
    obtain ⟨c, b', rfl, hc, hb⟩ := List.map_eq_cons_iff.1 hr
    exact ⟨a', b', c, j, rfl, by rw [hc]; exact hj, by rw [ha]; exact hi'⟩
  have look : ∀ (a b : List (CT T)) (c : CT T), cs = a ++ c :: b → c.1.1 ≠ [] → (∃ x, Leads x x c.1.1) ∧
      baseOf (a.map Prod.fst) + c.1.1.length ≤ s.len ∧ ∀ j e, c.1.1[j]? = some e →
      s.orientedStart (baseOf (a.map Prod.fst) + j) = some e.1 ∧ s.orientedEnd (baseOf (a.map Prod.fst) + j) = some e.2 ∧
      s.prev (baseOf (a.map Prod.fst) + j) = some (some (baseOf (a.map Prod.fst) + if j = 0 then c.1.1.length - 1 else j - 1)) ∧
      s.next (baseOf (a.map Prod.fst) + j) = some (some (baseOf (a.map Prod.fst) + if j + 1 = c.1.1.length then 0 else j + 1)) := by
    rintro a b ⟨⟨es, k⟩, t⟩ rfl hne
    have hr := h.refines
    rw [List.map_append, List.map_cons] at hr
    obtain ⟨_, l1, l2⟩ := Segs.contour_lookup hr
    obtain ⟨hk, hx⟩ := (h.closed ((es, k), t) (by simp)).resolve_left hne
    change k = .cycle at hk
    subst hk
    refine ⟨hx, by change _ + es.length ≤ _; omega, ?_⟩
    intro j e hj
    obtain ⟨_, h2, h3, h4, h5⟩ := l2 j e hj
    have hlt : j < es.length := (List.getElem?_eq_some_iff.1 hj).1
    refine ⟨h2, h3, ?_, ?_⟩
    · rw [h4]
      by_cases hj0 : j = 0
      · rw [if_pos hj0, if_pos hj0]; simp only [Segs.firstPrev]; congr 2; change _ = _ + (es.length - 1); omega
      · rw [if_neg hj0, if_neg hj0]; congr 2; omega
    · rw [h5]
      by_cases hj0 : j + 1 = es.length
      · rw [if_pos hj0, if_pos hj0]; simp only [Segs.lastNext]; congr 2
      · rw [if_neg hj0, if_neg hj0]; congr 2
  refine ⟨hs, hlens, h.len.symm, h.fine, ?_, ?_⟩
  · intro i hi
    obtain ⟨a, b, c, j, e, hj, rfl⟩ := key i hi
    have hne : c.1.1 ≠ [] := List.length_pos_iff.1 (by omega)
    obtain ⟨⟨x, hx⟩, l1, l2⟩ := look a b c e hne
    obtain ⟨_, e2, _, e4⟩ := l2 j _ (List.getElem?_eq_getElem hj)
    obtain ⟨j', hj'⟩ : ∃ j', j' = if j + 1 = c.1.1.length then 0 else j + 1 := ⟨_, rfl⟩
    have hjl : j' < c.1.1.length := by rw [hj']; split <;> omega
    obtain ⟨f1, _, f3, _⟩ := l2 j' _ (List.getElem?_eq_getElem hjl)
    rw [← hj'] at e4
    refine ⟨_, by omega, e4, ?_, ⟨_, e2, ?_⟩, ?_⟩
    · rw [f3]
      congr 3
      by_cases hl : j + 1 = c.1.1.length
      · rw [if_pos hl] at hj'
        rw [if_pos hj']; omega
      · rw [if_neg hl] at hj'
        rw [if_neg (by omega)]; omega
    · rw [f1]
      congr 1
      by_cases hl : j + 1 = c.1.1.length
      · rw [if_pos hl] at hj'
        subst hj'
        obtain ⟨g1, g2⟩ := hx.ends hne
        rw [List.head?_eq_getElem?, List.getElem?_eq_getElem hjl] at g1
        rw [List.getLast?_eq_getElem?, List.getElem?_eq_getElem (by omega)] at g2
        simp only [Option.map_some, Option.some.injEq] at g1 g2
        have : c.1.1[j].2 = x := by
          have hjj : j = c.1.1.length - 1 := by omega
          subst hjj; exact g2
        rw [g1, this]
      · rw [if_neg hl] at hj'
        subst hj'
        exact (hx.adj j _ _ (List.getElem?_eq_getElem hj) (List.getElem?_eq_getElem hjl)).symm
    · rw [h.tags, e, tagsOf_get a b c j hj, tagsOf_get a b c j' hjl]
  · intro i hi
    obtain ⟨a, b, c, j, e, hj, rfl⟩ := key i hi
    have hne : c.1.1 ≠ [] := List.length_pos_iff.1 (by omega)
    obtain ⟨⟨x, hx⟩, l1, l2⟩ := look a b c e hne
    obtain ⟨_, _, e3, _⟩ := l2 j _ (List.getElem?_eq_getElem hj)
    obtain ⟨j', hj'⟩ : ∃ j', j' = if j = 0 then c.1.1.length - 1 else j - 1 := ⟨_, rfl⟩
    have hjl : j' < c.1.1.length := by rw [hj']; split <;> omega
    obtain ⟨_, _, _, f4⟩ := l2 j' _ (List.getElem?_eq_getElem hjl)
    rw [← hj'] at e3
    refine ⟨_, by omega, e3, ?_⟩
    rw [f4]
    congr 3
    by_cases hl : j = 0
    · rw [if_pos hl] at hj'
      rw [if_pos (by omega)]; omega
    · rw [if_neg hl] at hj'
      rw [if_neg (by omega)]; omega

/-! ## Building -/

theorem filled_empty : Filled (T := T) Segments.empty [] [] :=
  ⟨⟨[], rfl, by simp, Segs.SameArrays.refl _⟩, rfl, by simp, by simp [Segments.empty]⟩

/-- The contours of a path. -/
theorem path_closed (p : List (PathEl ℝ)) (ds : List (List (Segs.Pt ℝ × Segs.Pt ℝ) × Kind))
    (h : Segs.allSome (Segs.subpathContour mono) (Segs.subpaths p) = some ds) (hcyc : ∀ x ∈ ds, x.1 = [] ∨ x.2 = .cycle) :
    ∀ c ∈ ds, c.1 = [] ∨ (c.2 = .cycle ∧ ∃ a, Leads a a c.1) := by
  rintro ⟨es, k⟩ hc
  by_cases hne : es = []
  · exact .inl hne
  refine .inr ?_
  have hk := (hcyc _ hc).resolve_left hne
  refine ⟨hk, ?_⟩
  obtain ⟨sub, hsub, hs⟩ := Segs.allSome_mem _ _ _ h _ hc
  obtain ⟨_, q2, _⟩ := Segs.C48_subpaths p
  obtain ⟨⟨a, b, hl⟩, _, hcl⟩ := Segs.subpathContour_leads mono mono_leads sub (q2 sub hsub).1 (q2 sub hsub).2 es k hs
  have hloop := hcl.1 hk
  obtain ⟨e1, e2⟩ := hl.ends hne
  rw [Option.map_eq_some_iff] at e1 e2
  obtain ⟨x, hx, rfl⟩ := e1
  obtain ⟨y, hy, rfl⟩ := e2
  have : x.1 = y.2 := by simpa [Segs.closedLoop, hx, hy] using hloop
  refine ⟨x.1, ?_⟩
  rw [← this] at hl
  exact hl

theorem addPaths_filled (ps : List (List (PathEl ℝ) × T)) : ∀ {s : Segments ℝ} {tags : List T} {cs : List (CT T)}, Filled s tags cs →
    s.enter = [] → s.exit = [] → ∀ {s' tags'}, addPaths s tags ps = .ok s' tags' →
    ∃ css : List (List (List (Segs.Pt ℝ × Segs.Pt ℝ) × Kind)), Segs.allSome (fun p : List (PathEl ℝ) × T => Segs.allSome (Segs.subpathContour mono) (Segs.subpaths p.1)) ps = some css ∧
      Filled s' tags' (cs ++ (css.zip ps).flatMap fun q => q.1.map fun d => (d, q.2.2)) ∧ s'.enter = [] ∧ s'.exit = [] := by
  induction ps with
  | nil =>
    intro s tags cs h he hx s' tags' hb
    simp only [addPaths] at hb
    injection hb with h1 h2
    subst h1 h2
    exact ⟨[], rfl, by simpa using h, he, hx⟩
  | cons p ps ih =>
    obtain ⟨p, t⟩ := p
    intro s tags cs h he hx s' tags' hb
    simp only [addPaths] at hb
    have hr := Segs.subpaths_refines 0 1 mono true (Segs.subpaths p) s (Segs.refines_len h.refines).2
    cases hc : s.addSubpaths 0 1 mono true (Segs.subpaths p) with
    | err a b s1 => rw [hc] at hb; simp at hb
    | panic => rw [hc] at hb; simp at hb
    | ok s1 =>
      rw [hc] at hb hr
      simp only at hb hr
      obtain ⟨ds, r1, r2, _, r3, r4, r5⟩ := hr
      have hF := h.add r3 t (path_closed p ds r1 (r2 trivial)) (addSubpaths_fine _ h.fine hc)
      obtain ⟨css, q1, q2, q3, q4⟩ := ih hF (by rw [r4, he]) (by rw [r5, hx]) hb
      refine ⟨ds :: css, ?_, ?_, q3, q4⟩
      · simp only [Segs.allSome, r1, q1]
      · simpa using q2

theorem refines_update {s : Segments ℝ} {n : Nat} {cs} (h : Refines Segments.empty s cs) : Refines Segments.empty (s.updateEnterExit atY n) cs := by
  obtain ⟨bs, e1, e2, e3⟩ := h
  exact ⟨bs, e1, e2, (Segs.update_arrays atY s n).trans e3⟩

theorem Filled.update {s : Segments ℝ} {tags : List T} {cs : List (CT T)} (h : Filled s tags cs) (n : Nat) : Filled (s.updateEnterExit atY n) tags cs :=
  ⟨refines_update h.refines, h.tags, h.closed, h.fine⟩

theorem buildPaths_filled {ps : List (List (PathEl ℝ) × T)} {s : Segments ℝ} {tags : List T} (h : buildPaths ps = .ok s tags) :
    ∃ css : List (List (List (Segs.Pt ℝ × Segs.Pt ℝ) × Kind)), Segs.allSome (fun p : List (PathEl ℝ) × T => Segs.allSome (Segs.subpathContour mono) (Segs.subpaths p.1)) ps = some css ∧
      Filled s tags ((css.zip ps).flatMap fun q => q.1.map fun d => (d, q.2.2)) ∧ Scheduled atY s := by
  unfold buildPaths at h
  cases hb : addPaths Segments.empty [] ps with
  | err a b => rw [hb] at h; simp at h
  | panic => rw [hb] at h; simp at h
  | ok s1 tags1 =>
    rw [hb] at h
    simp only at h
    injection h with h1 h2
    subst h1 h2
    obtain ⟨css, q1, q2, q3, q4⟩ := addPaths_filled ps filled_empty rfl rfl hb
    refine ⟨css, q1, by simpa using q2.update 0, ?_⟩
    exact Segs.update_scheduled atY Segments.empty s1 (Segs.scheduled_empty atY) ⟨s1.segs, by simp [Segments.empty]⟩ q3 q4

theorem buildPaths_arena {ps : List (List (PathEl ℝ) × T)} {s : Segments ℝ} {tags : List T} (h : buildPaths ps = .ok s tags) : Arena s tags := by
  obtain ⟨css, _, hF, hS⟩ := buildPaths_filled h
  exact hF.arena hS

theorem polylines_closed (pss : List (List (Segs.Pt ℝ))) : ∀ c ∈ pss.map (fun ps => (Segs.closedEdges ps, Kind.cycle)),
    c.1 = [] ∨ (c.2 = .cycle ∧ ∃ a, Leads a a c.1) := by
  intro c hc
  obtain ⟨ps, _, rfl⟩ := List.mem_map.1 hc
  by_cases hne : Segs.closedEdges ps = []
  · exact .inl hne
  · exact .inr ⟨rfl, Segs.closedEdges_leads ps hne⟩

theorem addPolylines_filled {s : Segments ℝ} {tags : List T} {cs : List (CT T)} (h : Filled s tags cs) (hs : Scheduled atY s) (pss : List (List (Segs.Pt ℝ))) (t : T) :
    Filled (s.addClosedPolylines 0 1 atY pss) (resize tags (s.addClosedPolylines 0 1 atY pss).len t)
      (cs ++ (pss.map fun ps => (Segs.closedEdges ps, Kind.cycle)).map fun d => (d, t)) ∧ Scheduled atY (s.addClosedPolylines 0 1 atY pss) := by
  obtain ⟨r1, r2, r3⟩ := Segs.raws_refines 0 1 pss s (Segs.refines_len h.refines).2
  have F := h.add r1 t (polylines_closed pss) (raws_fine pss h.fine)
  exact ⟨F.update s.len, Segs.update_scheduled atY s _ hs r1.frame.1 r2 r3⟩

theorem buildPolylines_filled (as bs : List (List (Segs.Pt ℝ))) : Filled (buildPolylines as bs).1 (buildPolylines as bs).2
    ((as.map fun ps => ((Segs.closedEdges ps, Kind.cycle), true)) ++ bs.map fun ps => ((Segs.closedEdges ps, Kind.cycle), false)) ∧
    Scheduled atY (buildPolylines as bs).1 := by
  obtain ⟨F1, S1⟩ := addPolylines_filled filled_empty (Segs.scheduled_empty atY) as true
  obtain ⟨F2, S2⟩ := addPolylines_filled F1 S1 bs false
  refine ⟨?_, S2⟩
  have F3 := F2
  simp only [List.nil_append, List.map_map] at F3
  exact F3

theorem buildPolylines_arena (as bs : List (List (Segs.Pt ℝ))) : Arena (buildPolylines as bs).1 (buildPolylines as bs).2 := by
  obtain ⟨F, S⟩ := buildPolylines_filled as bs
  exact F.arena S

end Verif.Full
