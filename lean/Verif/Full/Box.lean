import Verif.Full.LineFree
import Verif.Full.CurveExample
import Verif.Geom.Pieces
import Mathlib.Data.EReal.Basic

/-!
# C95: bounding boxes and the automatic tolerance

`Topology::bounding_box`, and `binary_op`, which chooses the tolerance from the bounding boxes of its arguments.
-/

namespace Verif.Full
open Verif.Curve Verif.BinOp Verif.Segs

/-! ## Model -/

/-- `kurbo::Rect`. -/
@[ext] structure Box (K : Type) where
  x0 : K
  y0 : K
  x1 : K
  y1 : K

/-- `kurbo::Rect::union`. -/
def Box.union {K : Type} [LinearOrder K] (a b : Box K) : Box K := ⟨min a.x0 b.x0, min a.y0 b.y0, max a.x1 b.x1, max a.y1 b.y1⟩

/-- `kurbo::Shape::bounding_box` of a cubic (as in `Geom.Cubic.bboxMin`, it is taken at its word). -/
noncomputable def cubicBox (c : Geom.Cubic) : Box ℝ :=
  ⟨c.bboxMin, sInf ((fun t => (c.eval t).y) '' Set.Icc 0 1), c.bboxMax, sSup ((fun t => (c.eval t).y) '' Set.Icc 0 1)⟩

/-- The same box with coordinates that may be infinite. -/
def Box.extend (b : Box ℝ) : Box EReal := ⟨b.x0, b.y0, b.x1, b.y1⟩

/-- topology.rs:1286-1297 (`bounding_box`). -/
noncomputable def boundingBox (s : Segments ℝ) : Box EReal := s.segs.foldl (fun r g => r.union (cubicBox (seg g).toCubic).extend) ⟨⊤, ⊤, ⊥, ⊥⟩

/-- `kurbo::Shape::bounding_box` of a path: the union of the boxes of its segments, or an empty box at the origin if it has none. (Lines and quadratic
curves are here raised to cubic curves first, which does not change their points.) -/
noncomputable def pathBox (p : List (PathEl ℝ)) : Box ℝ :=
  match (pathSegs p).getD [] with
  | [] => ⟨0, 0, 0, 0⟩
  | g :: gs => gs.foldl (fun r g => r.union (cubicBox (toCubic g))) (cubicBox (toCubic g))

/-- lib.rs:99-117: the tolerance chosen by `binary_op`, for finite coordinates. (For the others see C21.) -/
noncomputable def autoEps (a b : List (PathEl ℝ)) : ℝ :=
  let bbox := (pathBox a).union (pathBox b)
  let lo := min (min bbox.x0 bbox.x1) (min bbox.y0 bbox.y1)
  let hi := max (max bbox.x0 bbox.x1) (max bbox.y0 bbox.y1)
  let m2 := max |lo| |hi|
  let eps := m2 * (1 / 2 ^ 52 * 64)
  max eps (1 / 10 ^ 6)

/-- lib.rs:93-119 (`binary_op`). The tolerance of `cfg` is not used. -/
noncomputable def binaryOpAuto (cfg : Cfg) (again : Nat → Nat → Bool) (a b : List (PathEl ℝ)) (rule : BinOp.FillRule) (op : BinOp.Op) (fuel : Nat) : Result :=
  binaryOpPaths { cfg with eps := autoEps a b } again a b rule op fuel

/-! ## Specification -/

/-- The point is in the box. -/
def Box.Has (r : Box EReal) (p : Geom.Pt) : Prop := r.x0 ≤ p.x ∧ (p.x : EReal) ≤ r.x1 ∧ r.y0 ≤ p.y ∧ (p.y : EReal) ≤ r.y1

/-- One box is in the other (side by side). -/
def Box.Inside (r r' : Box EReal) : Prop := r'.x0 ≤ r.x0 ∧ r.x1 ≤ r'.x1 ∧ r'.y0 ≤ r.y0 ∧ r.y1 ≤ r'.y1

/-- The box with a margin. -/
noncomputable def Box.pad (r : Box EReal) (e : ℝ) : Box EReal := ⟨r.x0 - e, r.y0 - e, r.x1 + e, r.y1 + e⟩

/-- A segment of a path that is not a line of length zero, and not a horizontal curve. -/
def Visible : PathSeg ℝ → Prop
  | .line p q => p ≠ q
  | g => (toCubic g).NotFlat

/-- The points of a path. -/
def PathPoint (p : List (PathEl ℝ)) (x : Geom.Pt) : Prop := ∃ g ∈ (pathSegs p).getD [], ∃ t, 0 ≤ t ∧ t ≤ 1 ∧ x = (toCubic g).eval t

/-! ## Lemmas -/

theorem cubic_cont (c : Geom.Cubic) : Continuous fun t => (c.eval t).y := by
  show Continuous fun t => Geom.bez3 c.p0.y c.p1.y c.p2.y c.p3.y t
  unfold Geom.bez3; fun_prop

theorem boxY_least (c : Geom.Cubic) : IsLeast ((fun t => (c.eval t).y) '' Set.Icc 0 1) (cubicBox c).y0 :=
  (isCompact_Icc.image (cubic_cont c)).isLeast_sInf (Set.Nonempty.image _ ⟨0, by simp⟩)

theorem boxY_greatest (c : Geom.Cubic) : IsGreatest ((fun t => (c.eval t).y) '' Set.Icc 0 1) (cubicBox c).y1 :=
  (isCompact_Icc.image (cubic_cont c)).isGreatest_sSup (Set.Nonempty.image _ ⟨0, by simp⟩)

theorem Box.inside_trans {a b c : Box EReal} (h : a.Inside b) (h' : b.Inside c) : a.Inside c :=
  ⟨h'.1.trans h.1, h.2.1.trans h'.2.1, h'.2.2.1.trans h.2.2.1, h.2.2.2.trans h'.2.2.2⟩

theorem Box.inside_refl (a : Box EReal) : a.Inside a := ⟨le_rfl, le_rfl, le_rfl, le_rfl⟩

theorem union_inside {a b r : Box EReal} : (a.union b).Inside r ↔ a.Inside r ∧ b.Inside r := by
  simp only [Box.Inside, Box.union, le_min_iff, max_le_iff]; tauto

/-- A box contains the box of a curve if and only if it contains all points of the curve. -/
theorem cubicBox_inside (c : Geom.Cubic) (r : Box EReal) : (cubicBox c).extend.Inside r ↔ ∀ t, 0 ≤ t → t ≤ 1 → r.Has (c.eval t) := by
  constructor
  · rintro ⟨h1, h2, h3, h4⟩ t t0 t1
    have m : ∀ f : ℝ → ℝ, f t ∈ f '' Set.Icc 0 1 := fun f => ⟨t, ⟨t0, t1⟩, rfl⟩
    exact ⟨h1.trans (EReal.coe_le_coe_iff.2 ((Geom.Cubic.bboxMin_least c).2 (m _))), (EReal.coe_le_coe_iff.2 ((Geom.Cubic.bboxMax_greatest c).2 (m _))).trans h2,
      h3.trans (EReal.coe_le_coe_iff.2 ((boxY_least c).2 (m fun t => (c.eval t).y))), (EReal.coe_le_coe_iff.2 ((boxY_greatest c).2 (m fun t => (c.eval t).y))).trans h4⟩
  · intro h
    obtain ⟨a, ⟨a0, a1⟩, ha⟩ := (Geom.Cubic.bboxMin_least c).1
    obtain ⟨b, ⟨b0, b1⟩, hb⟩ := (Geom.Cubic.bboxMax_greatest c).1
    obtain ⟨d, ⟨d0, d1⟩, hd⟩ := (boxY_least c).1
    obtain ⟨e, ⟨e0, e1⟩, he⟩ := (boxY_greatest c).1
    simp only at ha hb hd he
    refine ⟨?_, ?_, ?_, ?_⟩
    · have := (h a a0 a1).1; rw [ha] at this; exact this
    · have := (h b b0 b1).2.1; rw [hb] at this; exact this
    · have := (h d d0 d1).2.2.1; rw [hd] at this; exact this
    · have := (h e e0 e1).2.2.2; rw [he] at this; exact this

theorem fold_inside {α : Type} (f : α → Box EReal) (l : List α) (b r : Box EReal) :
    (l.foldl (fun r g => r.union (f g)) b).Inside r ↔ b.Inside r ∧ ∀ g ∈ l, (f g).Inside r := by
  induction l generalizing b with
  | nil => simp
  | cons g l ih => rw [List.foldl_cons, ih, union_inside]; simp only [List.mem_cons, forall_eq_or_imp]; tauto

/-- A segment is in a box. -/
theorem toCubic_box (g : Geom.Seg) (r : Box EReal) : (cubicBox g.toCubic).extend.Inside r ↔ ∀ p, g.On p → r.Has p := by
  rw [cubicBox_inside]
  have h := (Geom.C42_to_cubic g).1
  constructor
  · intro hr p hp
    obtain ⟨t, t0, t1, rfl⟩ := (h p).2 hp
    exact hr t t0 t1
  · intro hr t t0 t1
    exact hr _ ((h _).1 ⟨t, t0, t1, rfl⟩)


theorem on_rev (g : Segs.Seg ℝ) (p : Geom.Pt) : (seg g.rev).On p ↔ (seg g).On p := by
  have key : ∀ g : Segs.Seg ℝ, (seg g).On p → (seg g.rev).On p := by
    intro g
    cases g with
    | line a b =>
      rintro ⟨t, t0, t1, rfl⟩
      exact ⟨1 - t, by linarith, by linarith, by ext <;> simp only [Geom.Pt.affine] <;> ring⟩
    | cubic a b c d =>
      rintro ⟨t, t0, t1, rfl⟩
      refine ⟨1 - t, by linarith, by linarith, ?_⟩
      ext <;> simp only [cubic, Geom.Cubic.eval, Geom.bez3] <;> ring
  exact ⟨fun h => by have := key g.rev h; rwa [rev_rev] at this, key g⟩

/-- The points of the arena are the points of the curves that were added. -/
theorem made_points {T : Type} {s : Segments ℝ} {tags : List T} {os : List (Origin ℝ × T)} (h : Made s tags os) (P : Geom.Pt → Prop) :
    (∀ g ∈ s.segs, ∀ p, (seg g).On p → P p) ↔ ∀ o ∈ os, ∀ p, (seg o.1.curve).On p → P p := by
  have hl := made_len h
  constructor
  · intro hg o ho p hp
    obtain ⟨i, hi, rfl⟩ := List.getElem_of_mem ho
    obtain ⟨g, b, h1, -, h3, -⟩ := made_get h (i := i) (o := os[i].1) (t := os[i].2) (List.getElem?_eq_getElem hi)
    refine hg g (List.mem_of_getElem? h1) p ?_
    rw [h3] at hp
    cases b
    · exact (on_rev g p).1 hp
    · exact hp
  · intro ho g hg p hp
    obtain ⟨i, hi, rfl⟩ := List.getElem_of_mem hg
    have hi' : i < os.length := by rw [← hl]; exact hi
    obtain ⟨g, b, h1, -, h3, -⟩ := made_get h (i := i) (o := os[i].1) (t := os[i].2) (List.getElem?_eq_getElem hi')
    rw [List.getElem?_eq_getElem hi, Option.some.injEq] at h1
    refine ho os[i] (List.getElem_mem hi') p ?_
    rw [h3]
    cases b
    · exact (on_rev g p).2 (h1 ▸ hp)
    · exact h1 ▸ hp

/-- A chain of ranges covers all between its ends. -/
theorem chain_covers (l : List Geom.MonoPiece) : ∀ u v : ℝ, l.head?.map Geom.MonoPiece.startT = some u → l.getLast?.map Geom.MonoPiece.endT = some v →
    l.IsChain (fun p q => p.endT = q.startT) → ∀ t, u ≤ t → t ≤ v → ∃ p ∈ l, p.startT ≤ t ∧ t ≤ p.endT := by
  induction l with
  | nil => intro u v h; simp at h
  | cons a l ih =>
    intro u v h1 h2 h3 t h4 h5
    simp only [List.head?_cons, Option.map_some, Option.some.injEq] at h1
    cases l with
    | nil =>
      simp only [List.getLast?_singleton, Option.map_some, Option.some.injEq] at h2
      exact ⟨a, by simp, by linarith, by linarith⟩
    | cons b l =>
      rw [List.isChain_cons_cons] at h3
      rw [List.getLast?_cons_cons] at h2
      rcases le_total t a.endT with h | h
      · exact ⟨a, by simp, by linarith, h⟩
      · obtain ⟨p, hp, h6⟩ := ih b.startT v rfl h2 h3.2 t (by rw [← h3.1]; exact h) h5
        exact ⟨p, List.mem_cons_of_mem _ hp, h6⟩

theorem chain_range {c : Geom.Cubic} (hf : c.NotFlat) (m : Geom.MonoPiece) (hm : m ∈ Geom.monotonicPieces c) : 0 ≤ m.startT ∧ m.endT ≤ 1 := by
  have key : ∀ (l : List Geom.MonoPiece) (u : ℝ), 0 ≤ u → Geom.Chain c u l → u ≤ 1 ∧ ∀ m ∈ l, 0 ≤ m.startT ∧ m.endT ≤ 1 := by
    intro l
    induction l with
    | nil => intro u _ h; exact ⟨le_of_eq h, by simp⟩
    | cons m l ih =>
      rintro u hu ⟨h1, h2, h3, -, h5⟩
      subst h1
      obtain ⟨i1, i2⟩ := ih m.endT (hu.trans h2.le) h5
      refine ⟨h2.le.trans i1, ?_⟩
      rintro m' (_ | ⟨_, hm⟩)
      · exact ⟨hu, i1⟩
      · exact i2 m' hm
  exact (key _ 0 le_rfl (Geom.piecesFrom_chain hf _ 0 zero_lt_one (Geom.speedRoots_ok c).1).1).2 m hm

/-- The points of the pieces of a curve are the points of the curve. -/
theorem pieces_points {c : Geom.Cubic} (hf : c.NotFlat) (g : PathSeg ℝ) (hc : toCubic g = c) (P : Geom.Pt → Prop) :
    (∀ o ∈ (mono g).map (fun m => (⟨if m.1.p0.y = m.1.p3.y then .line m.1.p0 m.1.p3 else .cubic m.1.p0 m.1.p1 m.1.p2 m.1.p3, m.2, g⟩ : Origin ℝ)),
      ∀ p, (seg o.curve).On p → P p) ↔ ∀ t, 0 ≤ t → t ≤ 1 → P (c.eval t) := by
  obtain ⟨-, h1, h2, h3, h4⟩ := Geom.C65_monotonic_pieces c hf
  have hcurve : ∀ m ∈ Geom.monotonicPieces c, ∀ p, (∃ s, 0 ≤ s ∧ s ≤ 1 ∧ p = m.piece.eval s) ↔
      (seg (if (uncubic m.piece).p0.y = (uncubic m.piece).p3.y then Segs.Seg.line (uncubic m.piece).p0 (uncubic m.piece).p3 else
        .cubic (uncubic m.piece).p0 (uncubic m.piece).p1 (uncubic m.piece).p2 (uncubic m.piece).p3)).On p := by
    intro m hm p
    obtain ⟨hlt, he, hmono⟩ := h4 m hm
    have e0 := he 0
    have e1 := he 1
    rw [Geom.Cubic.eval_zero] at e0
    rw [Geom.Cubic.eval_one] at e1
    have hne : ¬ (uncubic m.piece).p0.y = (uncubic m.piece).p3.y := by
      change ¬ m.piece.p0.y = m.piece.p3.y
      rw [e0, e1]
      have a0 : m.startT + 0 * (m.endT - m.startT) = m.startT := by ring
      have a1 : m.startT + 1 * (m.endT - m.startT) = m.endT := by ring
      rw [a0, a1]
      rcases hmono with hm | hm
      · exact (hm _ _ le_rfl hlt le_rfl).ne
      · exact (hm _ _ le_rfl hlt le_rfl).ne'
    rw [if_neg hne]
    rfl
  constructor
  · intro h t t0 t1
    obtain ⟨m, hm, a1, a2⟩ := chain_covers _ 0 1 h1 h2 h3 t t0 t1
    obtain ⟨hlt, he, -⟩ := h4 m hm
    have hd : 0 < m.endT - m.startT := sub_pos.2 hlt
    have hmem : (uncubic m.piece, m.startT, m.endT) ∈ mono g := by
      unfold mono; rw [hc]; exact List.mem_map.2 ⟨m, hm, rfl⟩
    refine h _ (List.mem_map.2 ⟨_, hmem, rfl⟩) _ ((hcurve m hm _).1 ⟨(t - m.startT) / (m.endT - m.startT), div_nonneg (by linarith) hd.le, ?_, ?_⟩)
    · rw [div_le_one hd]; linarith
    · rw [he]; congr 1; field_simp; ring
  · intro h o ho p hp
    obtain ⟨m', hm', rfl⟩ := List.mem_map.1 ho
    unfold mono at hm'
    rw [hc] at hm'
    obtain ⟨m, hm, rfl⟩ := List.mem_map.1 hm'
    obtain ⟨s, s0, s1, rfl⟩ := (hcurve m hm p).2 hp
    obtain ⟨hlt, he, -⟩ := h4 m hm
    rw [he]
    have b0 := (chain_range hf m hm).1
    have b1 := (chain_range hf m hm).2
    exact h _ (by nlinarith) (by nlinarith)

/-! ## C95 -/

/-- **C95.** `bounding_box` contains every point of every segment of the topology, and is contained in every box that does. -/
theorem C95_box (s : Segments ℝ) : (∀ g ∈ s.segs, ∀ p, (seg g).On p → (boundingBox s).Has p) ∧
    ∀ r : Box EReal, (∀ g ∈ s.segs, ∀ p, (seg g).On p → r.Has p) → (boundingBox s).Inside r := by
  have key : ∀ r : Box EReal, (boundingBox s).Inside r ↔ ∀ g ∈ s.segs, ∀ p, (seg g).On p → r.Has p := by
    intro r
    unfold boundingBox
    rw [fold_inside (fun g => (cubicBox (seg g).toCubic).extend)]
    simp only [toCubic_box]
    exact ⟨fun h => h.2, fun h => ⟨⟨le_top, bot_le, le_top, bot_le⟩, h⟩⟩
  exact ⟨(key _).1 (Box.inside_refl _), fun r => (key r).2⟩

theorem box_iff (s : Segments ℝ) (r : Box EReal) : (boundingBox s).Inside r ↔ ∀ g ∈ s.segs, ∀ p, (seg g).On p → r.Has p := by
  constructor
  · rintro ⟨h1, h2, h3, h4⟩ g hg p hp
    obtain ⟨a1, a2, a3, a4⟩ := (C95_box s).1 g hg p hp
    exact ⟨h1.trans a1, a2.trans h2, h3.trans a3, a4.trans h4⟩
  · exact (C95_box s).2 r

theorem segOrigins_points (g : PathSeg ℝ) (hg : Visible g ∨ ∃ p, g = .line p p) (P : Geom.Pt → Prop) :
    (∀ o ∈ Segs.segOrigins 0 1 mono g, ∀ p, (seg o.curve).On p → P p) ↔ (Visible g → ∀ t, 0 ≤ t → t ≤ 1 → P ((toCubic g).eval t)) := by
  cases g with
  | line p q =>
    by_cases h : p = q
    · subst h
      simp [Segs.segOrigins, Visible]
    · have ho : Segs.segOrigins 0 1 mono (.line p q) = [⟨.line p q, (0, 1), .line p q⟩] := if_neg h
      rw [ho]
      simp only [List.mem_singleton, forall_eq, Visible, ne_eq, h, not_false_eq_true, forall_true_left]
      have hline : ∀ t, (toCubic (.line p q)).eval t = (pt p).affine (pt q) t := by
        intro t; ext <;> simp only [toCubic, pt, Geom.Cubic.eval, Geom.bez3, Geom.Pt.affine] <;> ring
      constructor
      · intro h t t0 t1; rw [hline]; exact h _ ⟨t, t0, t1, rfl⟩
      · rintro h _ ⟨t, t0, t1, rfl⟩; have := h t t0 t1; rw [hline] at this; exact this
  | quad p q r =>
    have hv : Visible (.quad p q r) := by rcases hg with h | ⟨_, h⟩ <;> first | exact h | cases h
    rw [show (Visible (.quad p q r) → ∀ t, 0 ≤ t → t ≤ 1 → P ((toCubic (.quad p q r)).eval t)) ↔ ∀ t, 0 ≤ t → t ≤ 1 → P ((toCubic (.quad p q r)).eval t) from
      ⟨fun h => h hv, fun h _ => h⟩]
    exact pieces_points hv (.quad p q r) rfl P
  | cubic p q r u =>
    have hv : Visible (.cubic p q r u) := by rcases hg with h | ⟨_, h⟩ <;> first | exact h | cases h
    rw [show (Visible (.cubic p q r u) → ∀ t, 0 ≤ t → t ≤ 1 → P ((toCubic (.cubic p q r u)).eval t)) ↔ ∀ t, 0 ≤ t → t ≤ 1 → P ((toCubic (.cubic p q r u)).eval t) from
      ⟨fun h => h hv, fun h _ => h⟩]
    exact pieces_points hv (.cubic p q r u) rfl P

/-- **C95.** For a topology made of paths without horizontal curves: a box contains `bounding_box` if and only if it contains every point of every segment of the paths
(other than lines of length zero). -/
theorem C95_paths {T : Type} {ps : List (List (PathEl ℝ) × T)} {s : Segments ℝ} {tags : List T} (h : buildPaths ps = .ok s tags)
    (hv : ∀ p ∈ ps, ∀ g ∈ (pathSegs p.1).getD [], Visible g ∨ ∃ p, g = .line p p) (r : Box EReal) :
    (boundingBox s).Inside r ↔ ∀ p ∈ ps, ∀ g ∈ (pathSegs p.1).getD [], Visible g → ∀ t, 0 ≤ t → t ≤ 1 → r.Has ((toCubic g).eval t) := by
  rw [box_iff, made_points (buildPaths_made h)]
  constructor
  · intro ho p hp g hg
    refine (segOrigins_points g (hv p hp g hg) r.Has).1 fun o hoo x hx => ho (o, p.2) ?_ x hx
    exact List.mem_flatMap.2 ⟨p, hp, List.mem_map.2 ⟨o, List.mem_flatMap.2 ⟨g, hg, hoo⟩, rfl⟩⟩
  · rintro hp ⟨o, t⟩ ho x hx
    obtain ⟨p, hpp, ho⟩ := List.mem_flatMap.1 ho
    obtain ⟨o', ho', e⟩ := List.mem_map.1 ho
    obtain ⟨rfl, rfl⟩ := Prod.mk.inj e
    obtain ⟨g, hg, ho''⟩ := List.mem_flatMap.1 ho'
    exact (segOrigins_points g (hv p hpp g hg) r.Has).2 (hp p hpp g hg) _ ho'' x hx

theorem mem_closedEdges {ps : List (Segs.Pt ℝ)} (hl : 2 ≤ ps.length) {p : Segs.Pt ℝ} (hp : p ∈ ps) : ∃ e ∈ Segs.closedEdges ps, e.1 = p := by
  obtain ⟨i, hi, rfl⟩ := List.getElem_of_mem hp
  unfold Segs.closedEdges
  rw [if_neg (by omega)]
  have hz : i < (ps.zip (ps.tail ++ ps.take 1)).length := by simp; omega
  exact ⟨_, List.getElem_mem hz, by simp⟩

theorem closedEdges_mem {ps : List (Segs.Pt ℝ)} {e : Segs.Pt ℝ × Segs.Pt ℝ} (h : e ∈ Segs.closedEdges ps) : 2 ≤ ps.length ∧ e.1 ∈ ps ∧ e.2 ∈ ps := by
  unfold Segs.closedEdges at h
  by_cases hl : ps.length ≤ 1
  · simp [hl] at h
  · rw [if_neg hl] at h
    refine ⟨by omega, (List.of_mem_zip h).1, ?_⟩
    rcases List.mem_append.1 (List.of_mem_zip h).2 with h | h
    · exact List.mem_of_mem_tail h
    · exact List.mem_of_mem_take h

theorem Box.Has.affine {r : Box EReal} {p q : Geom.Pt} (hp : r.Has p) (hq : r.Has q) {t : ℝ} (t0 : 0 ≤ t) (t1 : t ≤ 1) : r.Has (p.affine q t) := by
  obtain ⟨a1, a2, a3, a4⟩ := hp
  obtain ⟨b1, b2, b3, b4⟩ := hq
  have lo : ∀ (u : EReal) (a b : ℝ), u ≤ a → u ≤ b → u ≤ ((a + t * (b - a) : ℝ) : EReal) := fun u a b h1 h2 => by
    rcases le_total a b with h | h
    · exact h1.trans (EReal.coe_le_coe_iff.2 (by nlinarith))
    · exact h2.trans (EReal.coe_le_coe_iff.2 (by nlinarith))
  have hi : ∀ (u : EReal) (a b : ℝ), a ≤ u → b ≤ u → ((a + t * (b - a) : ℝ) : EReal) ≤ u := fun u a b h1 h2 => by
    rcases le_total a b with h | h
    · exact (EReal.coe_le_coe_iff.2 (by nlinarith)).trans h2
    · exact (EReal.coe_le_coe_iff.2 (by nlinarith)).trans h1
  have ex : (p.affine q t).x = p.x + t * (q.x - p.x) := by simp only [Geom.Pt.affine]; ring
  have ey : (p.affine q t).y = p.y + t * (q.y - p.y) := by simp only [Geom.Pt.affine]; ring
  unfold Box.Has
  rw [ex, ey]
  exact ⟨lo _ _ _ a1 b1, hi _ _ _ a2 b2, lo _ _ _ a3 b3, hi _ _ _ a4 b4⟩

/-- **C95.** For a topology made of polygons: a box contains `bounding_box` if and only if it contains all corners. (A polygon with only one point has no edges.) -/
theorem C95_polygons (as bs : List (List (Segs.Pt ℝ))) (r : Box EReal) :
    (boundingBox (buildPolylines as bs).1).Inside r ↔ ∀ ps ∈ as ++ bs, 2 ≤ ps.length → ∀ p ∈ ps, r.Has (pt p) := by
  rw [box_iff, made_points (buildPolylines_made as bs)]
  constructor
  · intro ho ps hps hl p hp
    obtain ⟨e, he, rfl⟩ := mem_closedEdges hl hp
    have hmem : ∃ t, (Segs.edgeOrigin 0 1 e, t) ∈ ((as.flatMap fun ps => (Segs.closedEdges ps).map (Segs.edgeOrigin 0 1)).map fun o => (o, true)) ++
        ((bs.flatMap fun ps => (Segs.closedEdges ps).map (Segs.edgeOrigin 0 1)).map fun o => (o, false)) := by
      rcases List.mem_append.1 hps with h | h
      · exact ⟨true, List.mem_append_left _ (List.mem_map.2 ⟨_, List.mem_flatMap.2 ⟨ps, h, List.mem_map.2 ⟨e, he, rfl⟩⟩, rfl⟩)⟩
      · exact ⟨false, List.mem_append_right _ (List.mem_map.2 ⟨_, List.mem_flatMap.2 ⟨ps, h, List.mem_map.2 ⟨e, he, rfl⟩⟩, rfl⟩)⟩
    obtain ⟨t, hmem⟩ := hmem
    refine ho _ hmem (pt e.1) ⟨0, le_rfl, zero_le_one, ?_⟩
    ext <;> simp [Geom.Pt.affine]
  · rintro hc ⟨o, t⟩ ho x hx
    obtain ⟨ps, hps, e, he, rfl⟩ : ∃ ps ∈ as ++ bs, ∃ e ∈ Segs.closedEdges ps, o = Segs.edgeOrigin 0 1 e := by
      rcases List.mem_append.1 ho with h | h <;> obtain ⟨o', ho', e'⟩ := List.mem_map.1 h <;> obtain ⟨rfl, rfl⟩ := Prod.mk.inj e' <;>
        obtain ⟨ps, hps, h⟩ := List.mem_flatMap.1 ho' <;> obtain ⟨e, he, rfl⟩ := List.mem_map.1 h
      · exact ⟨ps, List.mem_append_left _ hps, e, he, rfl⟩
      · exact ⟨ps, List.mem_append_right _ hps, e, he, rfl⟩
    obtain ⟨hl, m1, m2⟩ := closedEdges_mem he
    obtain ⟨u, u0, u1, rfl⟩ := hx
    exact (hc ps hps hl _ m1).affine (hc ps hps hl _ m2) u0 u1

/-- **C95.** Every point of every edge of a result that is right (C85) is in the bounding box of the input, enlarged by the tolerance. -/
theorem C95_result {eps : ℝ} {as bs : List (List (Segs.Pt ℝ))} {rule : FillRule} {op : Op} {out : List OutContour} (h : RightPaths eps as bs rule op out) :
    ∀ c ∈ out, ∃ es, Drawn c.path es ∧ ∀ e ∈ es, ∀ u : ℝ, 0 ≤ u → u ≤ 1 →
      ((boundingBox (buildPolylines as bs).1).pad eps).Has ⟨(1 - u) * e.1.x + u * e.2.x, (1 - u) * e.1.y + u * e.2.y⟩ := by
  intro c hc
  obtain ⟨es, hd, hn⟩ := h.polygon c hc
  refine ⟨es, hd, fun e he u u0 u1 => ?_⟩
  obtain ⟨ps, hps, f, hf, hv⟩ := hn e he
  obtain ⟨v, v0, v1, h1, h2⟩ := hv u u0 u1
  obtain ⟨hl, m1, m2⟩ := closedEdges_mem hf
  have hB := (C95_polygons as bs (boundingBox (buildPolylines as bs).1)).1 (Box.inside_refl _) ps hps hl
  obtain ⟨b1, b2, b3, b4⟩ := (hB _ m1).affine (hB _ m2) v0 v1
  simp only [Geom.Pt.affine, pt] at b1 b2 b3 b4
  rw [abs_le] at h1 h2
  have lo : ∀ (u : EReal) (a b : ℝ), u ≤ a → a - eps ≤ b → u - eps ≤ (b : EReal) := fun u a b h1 h2 => by
    refine (EReal.sub_le_sub h1 le_rfl).trans ?_
    rw [← EReal.coe_sub]; exact EReal.coe_le_coe_iff.2 h2
  have hi : ∀ (u : EReal) (a b : ℝ), a ≤ u → b ≤ a + eps → (b : EReal) ≤ u + eps := fun u a b h1 h2 => by
    refine le_trans ?_ (add_le_add h1 le_rfl)
    rw [← EReal.coe_add]; exact EReal.coe_le_coe_iff.2 h2
  exact ⟨lo _ _ _ b1 (by simp only; linarith), hi _ _ _ b2 (by simp only; linarith), lo _ _ _ b3 (by simp only; linarith), hi _ _ _ b4 (by simp only; linarith)⟩

/-! ## The automatic tolerance -/

/-- All coordinates are at most `m`. -/
def Box.Within (b : Box ℝ) (m : ℝ) : Prop := |b.x0| ≤ m ∧ |b.y0| ≤ m ∧ |b.x1| ≤ m ∧ |b.y1| ≤ m

/-- The box contains the point. -/
def Box.Covers (b : Box ℝ) (x : Geom.Pt) : Prop := b.x0 ≤ x.x ∧ x.x ≤ b.x1 ∧ b.y0 ≤ x.y ∧ x.y ≤ b.y1

theorem abs_min_le {a b m : ℝ} (ha : |a| ≤ m) (hb : |b| ≤ m) : |min a b| ≤ m := by rcases min_choice a b with h | h <;> rw [h] <;> assumption
theorem abs_max_le {a b m : ℝ} (ha : |a| ≤ m) (hb : |b| ≤ m) : |max a b| ≤ m := by rcases max_choice a b with h | h <;> rw [h] <;> assumption

theorem Box.Within.union {a b : Box ℝ} {m : ℝ} (ha : a.Within m) (hb : b.Within m) : (a.union b).Within m :=
  ⟨abs_min_le ha.1 hb.1, abs_min_le ha.2.1 hb.2.1, abs_max_le ha.2.2.1 hb.2.2.1, abs_max_le ha.2.2.2 hb.2.2.2⟩

theorem Box.Covers.left {a : Box ℝ} {x : Geom.Pt} (h : a.Covers x) (b : Box ℝ) : (a.union b).Covers x :=
  ⟨(min_le_left _ _).trans h.1, h.2.1.trans (le_max_left _ _), (min_le_left _ _).trans h.2.2.1, h.2.2.2.trans (le_max_left _ _)⟩

theorem Box.Covers.right {b : Box ℝ} {x : Geom.Pt} (h : b.Covers x) (a : Box ℝ) : (a.union b).Covers x :=
  ⟨(min_le_right _ _).trans h.1, h.2.1.trans (le_max_right _ _), (min_le_right _ _).trans h.2.2.1, h.2.2.2.trans (le_max_right _ _)⟩

theorem cubicBox_within {c : Geom.Cubic} {m : ℝ} (h : ∀ t, 0 ≤ t → t ≤ 1 → |(c.eval t).x| ≤ m ∧ |(c.eval t).y| ≤ m) : (cubicBox c).Within m := by
  obtain ⟨a, ⟨a0, a1⟩, ha⟩ := (Geom.Cubic.bboxMin_least c).1
  obtain ⟨b, ⟨b0, b1⟩, hb⟩ := (Geom.Cubic.bboxMax_greatest c).1
  obtain ⟨d, ⟨d0, d1⟩, hd⟩ := (boxY_least c).1
  obtain ⟨e, ⟨e0, e1⟩, he⟩ := (boxY_greatest c).1
  simp only at ha hb hd he
  refine ⟨?_, ?_, ?_, ?_⟩
  · have := (h a a0 a1).1; rw [ha] at this; exact this
  · have := (h d d0 d1).2; rw [hd] at this; exact this
  · have := (h b b0 b1).1; rw [hb] at this; exact this
  · have := (h e e0 e1).2; rw [he] at this; exact this

theorem cubicBox_covers (c : Geom.Cubic) {t : ℝ} (t0 : 0 ≤ t) (t1 : t ≤ 1) : (cubicBox c).Covers (c.eval t) :=
  ⟨(Geom.Cubic.bboxMin_least c).2 ⟨t, ⟨t0, t1⟩, rfl⟩, (Geom.Cubic.bboxMax_greatest c).2 ⟨t, ⟨t0, t1⟩, rfl⟩, (boxY_least c).2 ⟨t, ⟨t0, t1⟩, rfl⟩,
    (boxY_greatest c).2 ⟨t, ⟨t0, t1⟩, rfl⟩⟩

theorem fold_within (gs : List (PathSeg ℝ)) {m : ℝ} (h : ∀ g ∈ gs, (cubicBox (toCubic g)).Within m) : ∀ b : Box ℝ, b.Within m →
    (gs.foldl (fun r g => r.union (cubicBox (toCubic g))) b).Within m := by
  induction gs with
  | nil => exact fun b hb => hb
  | cons g gs ih => exact fun b hb => ih (fun g' hg' => h g' (List.mem_cons_of_mem _ hg')) _ (hb.union (h g (by simp)))

theorem fold_covers (gs : List (PathSeg ℝ)) (x : Geom.Pt) : ∀ b : Box ℝ, (b.Covers x ∨ ∃ g ∈ gs, (cubicBox (toCubic g)).Covers x) →
    (gs.foldl (fun r g => r.union (cubicBox (toCubic g))) b).Covers x := by
  induction gs with
  | nil => rintro b (h | ⟨g, hg, -⟩); exacts [h, absurd hg (by simp)]
  | cons g gs ih =>
    rintro b (h | ⟨g', hg', h⟩)
    · exact ih _ (.inl (h.left _))
    · rcases List.mem_cons.1 hg' with rfl | hg'
      · exact ih _ (.inl (h.right _))
      · exact ih _ (.inr ⟨g', hg', h⟩)

theorem pathBox_within (p : List (PathEl ℝ)) {m : ℝ} (hm : 0 ≤ m) (h : ∀ x, PathPoint p x → |x.x| ≤ m ∧ |x.y| ≤ m) : (pathBox p).Within m := by
  have hb : ∀ g ∈ (pathSegs p).getD [], (cubicBox (toCubic g)).Within m := fun g hg => cubicBox_within fun t t0 t1 => h _ ⟨g, hg, t, t0, t1, rfl⟩
  unfold pathBox
  split
  · simp [Box.Within, hm]
  · rename_i g gs e
    rw [e] at hb
    exact fold_within gs (fun g' hg' => hb g' (List.mem_cons_of_mem _ hg')) _ (hb g (by simp))

theorem pathBox_covers (p : List (PathEl ℝ)) {x : Geom.Pt} (h : PathPoint p x) : (pathBox p).Covers x := by
  obtain ⟨g, hg, t, t0, t1, rfl⟩ := h
  unfold pathBox
  split
  · rename_i e; rw [e] at hg; exact absurd hg (by simp)
  · rename_i g' gs e
    rw [e] at hg
    rcases List.mem_cons.1 hg with rfl | hg
    · exact fold_covers _ _ _ (.inl (cubicBox_covers _ t0 t1))
    · exact fold_covers _ _ _ (.inr ⟨g, hg, cubicBox_covers _ t0 t1⟩)

/-- **C95.** The tolerance that `binary_op` chooses is the largest of `10⁻⁶` and `2⁻⁴⁶` times the largest absolute value `M` of a coordinate of a point of the paths. -/
theorem C95_tolerance (a b : List (PathEl ℝ)) :
    ∃ M, IsLeast {m : ℝ | 0 ≤ m ∧ ∀ x, PathPoint a x ∨ PathPoint b x → |x.x| ≤ m ∧ |x.y| ≤ m} M ∧ autoEps a b = max (M / 2 ^ 46) (1 / 10 ^ 6) := by
  obtain ⟨bb, hbb⟩ : ∃ bb, bb = (pathBox a).union (pathBox b) := ⟨_, rfl⟩
  obtain ⟨lo, hlo⟩ : ∃ lo, lo = min (min bb.x0 bb.x1) (min bb.y0 bb.y1) := ⟨_, rfl⟩
  obtain ⟨hi, hhi⟩ : ∃ hi, hi = max (max bb.x0 bb.x1) (max bb.y0 bb.y1) := ⟨_, rfl⟩
  refine ⟨max |lo| |hi|, ⟨⟨(abs_nonneg _).trans (le_max_left _ _), fun x hx => ?_⟩, ?_⟩, ?_⟩
  · have hc : bb.Covers x := by
      rw [hbb]
      rcases hx with h | h
      · exact (pathBox_covers a h).left _
      · exact (pathBox_covers b h).right _
    obtain ⟨h1, h2, h3, h4⟩ := hc
    constructor
    · refine abs_le_max_abs_abs ?_ ?_
      · rw [hlo]; exact (min_le_left _ _).trans ((min_le_left _ _).trans h1)
      · rw [hhi]; exact h2.trans ((le_max_right _ _).trans (le_max_left _ _))
    · refine abs_le_max_abs_abs ?_ ?_
      · rw [hlo]; exact (min_le_right _ _).trans ((min_le_left _ _).trans h3)
      · rw [hhi]; exact h4.trans ((le_max_right _ _).trans (le_max_right _ _))
  · rintro m ⟨hm, h⟩
    have hw : bb.Within m := by
      rw [hbb]
      exact (pathBox_within a hm fun x hx => h x (.inl hx)).union (pathBox_within b hm fun x hx => h x (.inr hx))
    obtain ⟨h1, h2, h3, h4⟩ := hw
    refine max_le ?_ ?_
    · rw [hlo]; exact abs_min_le (abs_min_le h1 h3) (abs_min_le h2 h4)
    · rw [hhi]; exact abs_max_le (abs_max_le h1 h3) (abs_max_le h2 h4)
  · show max (max |min (min ((pathBox a).union (pathBox b)).x0 ((pathBox a).union (pathBox b)).x1) (min ((pathBox a).union (pathBox b)).y0 ((pathBox a).union (pathBox b)).y1)|
      |max (max ((pathBox a).union (pathBox b)).x0 ((pathBox a).union (pathBox b)).x1) (max ((pathBox a).union (pathBox b)).y0 ((pathBox a).union (pathBox b)).y1)| * (1 / 2 ^ 52 * 64))
      (1 / 10 ^ 6) = _
    rw [← hbb, ← hlo, ← hhi]
    congr 1
    ring

/-- **C95.** `binary_op`, with the tolerance that it chooses itself, on polygons that are in general position for this tolerance: it returns, and the result is right, with
any root finder. -/
theorem C95_auto {cfg : Cfg} {as bs : List (List (Segs.Pt ℝ))} (again : Nat → Nat → Bool) (hpp : Searches cfg.pp) (hf : OneFirst cfg.first) (ha : Proper as) (hb : Proper bs)
    (hP : LoosePolygons (autoEps (outlines as) (outlines bs)) (as ++ bs)) (hB : BeyondCorners cfg (as ++ bs)) (rule : FillRule) (op : Op) :
    ∃ N out, (∀ fuel, N ≤ fuel → binaryOpAuto cfg again (outlines as) (outlines bs) rule op fuel = .ok out) ∧
      RightPaths (autoEps (outlines as) (outlines bs)) as bs rule op out := by
  have he : 0 < autoEps (outlines as) (outlines bs) := by
    obtain ⟨M, -, h⟩ := C95_tolerance (outlines as) (outlines bs)
    rw [h]
    exact lt_of_lt_of_le (by norm_num) (le_max_right _ _)
  obtain ⟨N, out, h1, h2⟩ := C94_crossing (cfg := { cfg with eps := autoEps (outlines as) (outlines bs) }) again he hpp hf hP hB rule op
  refine ⟨N, out, fun fuel hf => ?_, h2⟩
  unfold binaryOpAuto
  rw [C85_outlines _ ha hb]
  exact h1 fuel hf

/-- The points of outlines are on the edges of the polygons. -/
theorem outline_point {pss : List (List (Segs.Pt ℝ))} (h : Proper pss) {x : Geom.Pt} (hx : PathPoint (outlines pss) x) :
    ∃ ps ∈ pss, ∃ e ∈ Segs.closedEdges ps, ∃ t, 0 ≤ t ∧ t ≤ 1 ∧ x = (pt e.1).affine (pt e.2) t := by
  obtain ⟨g, hg, t, t0, t1, rfl⟩ := hx
  unfold pathSegs at hg
  rw [subpaths_outlines, kurbo_filter pss h] at hg
  simp only [Option.map_some, Option.getD_some, List.mem_flatten] at hg
  obtain ⟨l, hl, hg⟩ := hg
  obtain ⟨ps, hps, rfl⟩ := List.mem_map.1 hl
  obtain ⟨e, he, rfl⟩ := List.mem_map.1 hg
  refine ⟨ps, List.mem_of_mem_filter hps, e, he, t, t0, t1, ?_⟩
  ext <;> simp only [toCubic, pt, Geom.Cubic.eval, Geom.bez3, Geom.Pt.affine] <;> ring

/-- **C95.** For polygons with coordinates of at most `70000000` the tolerance is `10⁻⁶`. -/
theorem C95_small {as bs : List (List (Segs.Pt ℝ))} (ha : Proper as) (hb : Proper bs) (hc : ∀ ps ∈ as ++ bs, ∀ p ∈ ps, |p.x| ≤ 70000000 ∧ |p.y| ≤ 70000000) :
    autoEps (outlines as) (outlines bs) = 1 / 10 ^ 6 := by
  obtain ⟨M, ⟨-, hl⟩, h⟩ := C95_tolerance (outlines as) (outlines bs)
  have hp : ∀ pss, Proper pss → (∀ ps ∈ pss, ∀ p ∈ ps, |p.x| ≤ 70000000 ∧ |p.y| ≤ 70000000) → ∀ x, PathPoint (outlines pss) x → |x.x| ≤ 70000000 ∧ |x.y| ≤ 70000000 := by
    intro pss hpp hc x hx
    obtain ⟨ps, hps, e, he, t, t0, t1, rfl⟩ := outline_point hpp hx
    obtain ⟨-, m1, m2⟩ := closedEdges_mem he
    obtain ⟨a1, a2⟩ := hc ps hps _ m1
    obtain ⟨b1, b2⟩ := hc ps hps _ m2
    simp only [Geom.Pt.affine, pt]
    rw [abs_le] at *
    rw [abs_le] at *
    constructor <;> constructor <;> nlinarith
  have hM : M ≤ 70000000 := hl ⟨by norm_num, fun x hx => by
    rcases hx with hx | hx
    · exact hp as ha (fun ps hps => hc ps (List.mem_append_left _ hps)) x hx
    · exact hp bs hb (fun ps hps => hc ps (List.mem_append_right _ hps)) x hx⟩
  rw [h, max_eq_right]
  rw [div_le_iff₀ (by norm_num)]
  norm_num
  linarith

/-! ## Non-vacuity -/

namespace Cross

theorem loose_tiny : LoosePolygons (1 / 10 ^ 6) [up, upsideDown] := by
  have hm : ∀ {t : ℝ} {a b : Geom.Seg}, Meet (1 / 10 ^ 6) t a b → Meet (1 / 100) t a b := by
    rintro t a b ⟨y0, y1, h1, h2, h3, h4, h5⟩
    exact ⟨y0, y1, h1, h2, h3.trans (by norm_num), h4.trans (by norm_num), h5.trans (by norm_num)⟩
  refine LoosePolygons.of_pairs ?_ loose.upright ?_ ?_
  · intro g hg
    obtain ⟨i, rfl⟩ := edge_eq hg
    fin_cases i <;> norm_num [edge, Moderate, slope, Geom.Seg.start, Geom.Seg.stop]
  · intro i j k a b c t n1 n2 n3 ha hb hc m1 m2
    obtain ⟨i', rfl, rfl⟩ := edge_at ha
    obtain ⟨j', rfl, rfl⟩ := edge_at hb
    obtain ⟨k', rfl, rfl⟩ := edge_at hc
    have h1 : i' ≠ j' := fun h => n1 (by rw [h])
    have h2 : j' ≠ k' := fun h => n2 (by rw [h])
    have h3 : i' ≠ k' := fun h => n3 (by rw [h])
    have g1 := meets h1 (hm m1)
    have g2 := meets h2 (hm m2)
    rcases g1 with ⟨q1, g1⟩ | ⟨q1, q1', g1⟩ | ⟨q1, g1⟩ <;> rcases g2 with ⟨q2, g2⟩ | ⟨q2, q2', g2⟩ | ⟨q2, g2⟩ <;>
      first
      | linarith
      | (clear n1 n2 n3 ha hb hc m1 m2; omega)
  · intro i j a b t n hv ha hb m
    obtain ⟨i', rfl, rfl⟩ := edge_at ha
    obtain ⟨j', rfl, rfl⟩ := edge_at hb
    have h1 : i' ≠ j' := fun h => n (by rw [h])
    have ht : t = 0 ∨ t = 10 ∨ t = 4 ∨ t = 14 := by
      obtain ⟨ps, hps, p, hp, rfl⟩ := hv
      simp only [List.mem_cons, List.not_mem_nil, or_false] at hps
      rcases hps with rfl | rfl <;> simp only [up, upsideDown, List.mem_cons, List.not_mem_nil, or_false] at hp <;> rcases hp with rfl | rfl | rfl <;> simp
    rcases meets h1 (hm m) with ⟨q, g⟩ | ⟨q, q', g⟩ | ⟨q, g⟩
    · have : t = 0 := by rcases ht with h | h | h | h <;> first | exact h | (exfalso; linarith)
      subst this
      left
      rcases g with ⟨rfl, rfl⟩ | ⟨rfl, rfl⟩ <;> exact ⟨rfl, Or.inl rfl⟩
    · exfalso; rcases ht with h | h | h | h <;> linarith
    · have : t = 14 := by rcases ht with h | h | h | h <;> first | exact h | (exfalso; linarith)
      subst this
      right
      rcases g with ⟨rfl, rfl⟩ | ⟨rfl, rfl⟩ <;> exact ⟨rfl, Or.inr rfl⟩

theorem auto_eps : autoEps (outlines [up]) (outlines [upsideDown]) = 1 / 10 ^ 6 := by
  refine C95_small proper_up proper_down fun ps hps p hp => ?_
  simp only [List.cons_append, List.nil_append, List.mem_cons, List.not_mem_nil, or_false] at hps
  rcases hps with rfl | rfl <;> simp only [up, upsideDown, List.mem_cons, List.not_mem_nil, or_false] at hp <;> rcases hp with rfl | rfl | rfl <;> norm_num

/-- The exclusive or of two triangles that cross, with the automatic tolerance. -/
theorem xor_auto : ∃ N out, (∀ fuel, N ≤ fuel → binaryOpAuto cfg' (fun _ _ => true) (outlines [up]) (outlines [upsideDown]) .nonZero .xor fuel = .ok out) ∧
    RightPaths (1 / 10 ^ 6) [up] [upsideDown] .nonZero .xor out := by
  have h := C95_auto (cfg := cfg') (as := [up]) (bs := [upsideDown]) (fun _ _ => true) Ex.searches oneFirst proper_up proper_down (by rw [auto_eps]; exact loose_tiny) beyond .nonZero .xor
  rw [auto_eps] at h
  exact h

/-- The bounding box of the triangles. -/
theorem box_triangles : boundingBox (buildPolylines [up] [upsideDown]).1 = ⟨((-10 : ℝ) : EReal), ((0 : ℝ) : EReal), ((10 : ℝ) : EReal), ((14 : ℝ) : EReal)⟩ := by
  have key := C95_polygons [up] [upsideDown]
  have h1 := (key (boundingBox (buildPolylines [up] [upsideDown]).1)).1 (Box.inside_refl _)
  have h2 := (key ⟨((-10 : ℝ) : EReal), ((0 : ℝ) : EReal), ((10 : ℝ) : EReal), ((14 : ℝ) : EReal)⟩).2 (fun ps hps _ p hp => by
    simp only [List.cons_append, List.nil_append, List.mem_cons, List.not_mem_nil, or_false] at hps
    rcases hps with rfl | rfl <;> simp only [up, upsideDown, List.mem_cons, List.not_mem_nil, or_false] at hp <;> rcases hp with rfl | rfl | rfl <;>
      exact ⟨EReal.coe_le_coe_iff.2 (by norm_num [pt]), EReal.coe_le_coe_iff.2 (by norm_num [pt]), EReal.coe_le_coe_iff.2 (by norm_num [pt]), EReal.coe_le_coe_iff.2 (by norm_num [pt])⟩)
  have a1 := h1 up (by simp) (by simp [up]) ⟨0, 0⟩ (by simp [up])
  have a2 := h1 up (by simp) (by simp [up]) ⟨10, 10⟩ (by simp [up])
  have a3 := h1 up (by simp) (by simp [up]) ⟨-10, 10⟩ (by simp [up])
  have a4 := h1 upsideDown (by simp) (by simp [upsideDown]) ⟨0, 14⟩ (by simp [upsideDown])
  ext
  · exact le_antisymm a3.1 h2.1
  · exact le_antisymm a1.2.2.1 h2.2.2.1
  · exact le_antisymm h2.2.1 a2.2.1
  · exact le_antisymm h2.2.2.2 a4.2.2.2

end Cross

/-- The bounding box of the two bows of `CurveExample`: the large one begins at the left below, the thin one at the left. -/
theorem Bow.box_bows {s : Segments ℝ} {tags : List Bool} (hb : buildPaths (tagged Bow.thin Bow.large) = .ok s tags) :
    boundingBox s = ⟨((0 : ℝ) : EReal), ((-1500 : ℝ) : EReal), ((9 / 2 : ℝ) : EReal), ((4500 : ℝ) : EReal)⟩ := by
  have hv : ∀ p ∈ tagged Bow.thin Bow.large, ∀ g ∈ (pathSegs p.1).getD [], Visible g ∨ ∃ p, g = .line p p := by
    intro p hp g hg
    left
    simp only [tagged, List.mem_cons, List.not_mem_nil, or_false] at hp
    rcases hp with rfl | rfl
    all_goals
      simp only [Bow.thin, Bow.large] at hg
      rw [Bow.segs_bow (by norm_num)] at hg
      simp only [Option.getD_some, List.mem_cons, List.not_mem_nil, or_false] at hg
      rcases hg with rfl | rfl <;> norm_num [Visible, toCubic, pt, Geom.Cubic.NotFlat]
  have key := fun r => C95_paths hb hv r
  have h1 := (key _).1 (Box.inside_refl _)
  have pts : ∀ p ∈ tagged Bow.thin Bow.large, ∀ g ∈ (pathSegs p.1).getD [], ∀ t, 0 ≤ t → t ≤ 1 → (boundingBox s).Has ((toCubic g).eval t) := fun p hp g hg => by
    refine h1 p hp g hg ?_
    rcases hv p hp g hg with h | ⟨q, rfl⟩
    · exact h
    · exfalso
      simp only [tagged, List.mem_cons, List.not_mem_nil, or_false] at hp
      rcases hp with rfl | rfl
      all_goals
        simp only [Bow.thin, Bow.large] at hg
        rw [Bow.segs_bow (by norm_num)] at hg
        simp only [Option.getD_some, List.mem_cons, List.not_mem_nil, or_false] at hg
        rcases hg with h | h
        · cases h
        · simp only [PathSeg.line.injEq] at h
          obtain ⟨rfl, h⟩ := h
          norm_num at h
  have h2 : (boundingBox s).Inside ⟨((0 : ℝ) : EReal), ((-1500 : ℝ) : EReal), ((9 / 2 : ℝ) : EReal), ((4500 : ℝ) : EReal)⟩ := by
    refine (key _).2 fun p hp g hg _ t t0 t1 => ?_
    have ht : 0 ≤ t * (1 - t) := mul_nonneg t0 (by linarith)
    have ht' : t * (1 - t) ≤ 1 / 4 := by nlinarith [sq_nonneg (t - 1 / 2)]
    simp only [tagged, List.mem_cons, List.not_mem_nil, or_false] at hp
    rcases hp with rfl | rfl
    all_goals
      simp only [Bow.thin, Bow.large] at hg
      rw [Bow.segs_bow (by norm_num)] at hg
      simp only [Option.getD_some, List.mem_cons, List.not_mem_nil, or_false] at hg
      rcases hg with rfl | rfl
      all_goals
        refine ⟨EReal.coe_le_coe_iff.2 ?_, EReal.coe_le_coe_iff.2 ?_, EReal.coe_le_coe_iff.2 ?_, EReal.coe_le_coe_iff.2 ?_⟩
        all_goals
          simp only [toCubic, pt, Geom.Cubic.eval, Geom.bez3]
          nlinarith
  have m1 : (PathSeg.cubic ⟨1 / 2, -1500⟩ ⟨1 / 2 + 4 / 3 * 4, -1500 + 2000⟩ ⟨1 / 2 + 4 / 3 * 4, -1500 + 2 * 2000⟩ ⟨1 / 2, -1500 + 3 * 2000⟩) ∈ (pathSegs Bow.large).getD [] := by
    unfold Bow.large; rw [Bow.segs_bow (by norm_num)]; simp
  have m0 : (PathSeg.cubic ⟨0, 0⟩ ⟨0 + 4 / 3 * 1, 0 + 1000⟩ ⟨0 + 4 / 3 * 1, 0 + 2 * 1000⟩ ⟨0, 0 + 3 * 1000⟩) ∈ (pathSegs Bow.thin).getD [] := by
    unfold Bow.thin; rw [Bow.segs_bow (by norm_num)]; simp
  have a1 := pts (Bow.thin, true) (by simp [tagged]) _ m0 0 le_rfl zero_le_one
  have a2 := pts (Bow.large, false) (by simp [tagged]) _ m1 0 le_rfl zero_le_one
  have a3 := pts (Bow.large, false) (by simp [tagged]) _ m1 (1 / 2) (by norm_num) (by norm_num)
  have a4 := pts (Bow.large, false) (by simp [tagged]) _ m1 1 zero_le_one le_rfl
  ext
  · refine le_antisymm (a1.1.trans_eq ?_) h2.1
    congr 1; norm_num [toCubic, pt, Geom.Cubic.eval, Geom.bez3]
  · refine le_antisymm (a2.2.2.1.trans_eq ?_) h2.2.2.1
    congr 1; norm_num [toCubic, pt, Geom.Cubic.eval, Geom.bez3]
  · refine le_antisymm h2.2.1 (le_of_eq_of_le ?_ a3.2.1)
    congr 1; norm_num [toCubic, pt, Geom.Cubic.eval, Geom.bez3]
  · refine le_antisymm h2.2.2.2 (le_of_eq_of_le ?_ a4.2.2.2)
    congr 1; norm_num [toCubic, pt, Geom.Cubic.eval, Geom.bez3]

end Verif.Full
