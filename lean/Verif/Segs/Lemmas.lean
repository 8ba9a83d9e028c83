import Verif.Segs.Model
import Mathlib.Order.Basic
import Mathlib.Tactic.Order

/-! Helper lemmas for the arena. -/

namespace Verif.Segs

variable {K : Type}

/-- How a contour's ends are linked. `dangling` is what the code does for open Bezier subpaths. -/
inductive Kind where
  | chain | cycle | dangling
deriving DecidableEq

/-- The endpoints of an item in input direction. -/
def Item.ends (it : Item K) : Pt K × Pt K :=
  if it.orient then (it.seg.start, it.seg.stop) else (it.seg.stop, it.seg.start)

def firstPrev (kind : Kind) (base n : Nat) : Option Nat :=
  match kind with
  | .chain => none
  | .cycle => some (base + n - 1)
  | .dangling => some (base - 1)

def lastNext (kind : Kind) (base n : Nat) : Option Nat :=
  match kind with
  | .chain => none
  | .cycle => some base
  | .dangling => some (base + n)

def blockPrev (kind : Kind) (base n : Nat) : List (Option Nat) :=
  (List.range n).map fun k => if k = 0 then firstPrev kind base n else some (base + k - 1)

def blockNext (kind : Kind) (base n : Nat) : List (Option Nat) :=
  (List.range n).map fun k => if k + 1 = n then lastNext kind base n else some (base + k + 1)

/-- Append one contour (description of the combined effect). -/
def appendBlock (s : Segments K) (b : List (Item K) × Kind) : Segments K :=
  { s with
    segs := s.segs ++ b.1.map Item.seg
    orientation := s.orientation ++ b.1.map Item.orient
    splitFromPredecessor := s.splitFromPredecessor ++ b.1.map Item.split
    inputSegs := s.inputSegs ++ b.1.map Item.input
    contourPrev := s.contourPrev ++ blockPrev b.2 s.len b.1.length
    contourNext := s.contourNext ++ blockNext b.2 s.len b.1.length }

def appendBlocks (s : Segments K) (bs : List (List (Item K) × Kind)) : Segments K :=
  bs.foldl appendBlock s

/-- All parallel arrays have the same length. -/
def Lens (s : Segments K) : Prop :=
  s.contourPrev.length = s.len ∧ s.contourNext.length = s.len ∧ s.orientation.length = s.len ∧
    s.splitFromPredecessor.length = s.len ∧ s.inputSegs.length = s.len

theorem pushItems_eq (its : List (Item K)) : ∀ s : Segments K,
    s.pushItems its =
      { s with
        segs := s.segs ++ its.map Item.seg
        orientation := s.orientation ++ its.map Item.orient
        splitFromPredecessor := s.splitFromPredecessor ++ its.map Item.split
        inputSegs := s.inputSegs ++ its.map Item.input
        contourPrev := s.contourPrev ++ (List.range its.length).map (fun k => some (s.len + k - 1))
        contourNext := s.contourNext ++ (List.range its.length).map (fun k => some (s.len + k + 1)) } := by
  induction its with
  | nil => intro s; simp [Segments.pushItems]
  | cons it its ih =>
    intro s
    have e : s.pushItems (it :: its) = (s.pushItem it).pushItems its := rfl
    rw [e, ih]
    have hl : (s.pushItem it).len = s.len + 1 := by simp [Segments.pushItem, Segments.len]
    rw [hl]
    simp only [Segments.pushItem, List.map_cons, List.length_cons, List.range_succ_eq_map,
      List.map_map]
    simp only [List.append_assoc, List.singleton_append, Segments.mk.injEq, List.append_cancel_left_eq,
      List.cons.injEq, true_and, Option.some.injEq, and_true]
    refine ⟨⟨by simp [Segments.len], ?_⟩, ⟨by simp [Segments.len], ?_⟩⟩
    · apply List.map_congr_left; intro k _; simp only [Function.comp]; congr 1; omega
    · apply List.map_congr_left; intro k _; simp only [Function.comp]; congr 1; omega

theorem len_pushItems (s : Segments K) (its : List (Item K)) :
    (s.pushItems its).len = s.len + its.length := by
  rw [pushItems_eq]; simp [Segments.len]

theorem len_appendBlock (s : Segments K) (b : List (Item K) × Kind) :
    (appendBlock s b).len = s.len + b.1.length := by simp [appendBlock, Segments.len]

theorem appendBlock_nil (s : Segments K) (k : Kind) : appendBlock s ([], k) = s := by
  simp [appendBlock, blockPrev, blockNext]

theorem blockPrev_eq (base n : Nat) (kind : Kind) :
    blockPrev kind base (n + 1) =
      ((List.range (n + 1)).map (fun k => some (base + k - 1))).set 0 (firstPrev kind base (n + 1)) := by
  apply List.ext_getElem?
  intro i
  rw [List.getElem?_set]
  simp only [blockPrev, List.getElem?_map, List.length_map, List.length_range]
  by_cases h : i < n + 1
  · rw [List.getElem?_range h]
    by_cases h0 : i = 0
    · subst h0; simp
    · have : ¬ (0 = i) := fun e => h0 e.symm
      simp [h0, this]
  · have : (List.range (n + 1))[i]? = none := by simp; omega
    rw [this]
    have : ¬ (0 = i) := by omega
    simp [this]

theorem blockNext_eq (base n : Nat) (kind : Kind) :
    blockNext kind base (n + 1) =
      ((List.range (n + 1)).map (fun k => some (base + k + 1))).set n (lastNext kind base (n + 1)) := by
  apply List.ext_getElem?
  intro i
  rw [List.getElem?_set]
  simp only [blockNext, List.getElem?_map, List.length_map, List.length_range]
  by_cases h : i < n + 1
  · rw [List.getElem?_range h]
    by_cases h0 : n = i
    · subst h0; simp
    · have : ¬ (i + 1 = n + 1) := by omega
      rw [if_neg h0]; simp only [Option.map_some, if_neg this]
  · have : (List.range (n + 1))[i]? = none := by simp; omega
    rw [this]
    have : ¬ (n = i) := by omega
    simp [this]

/-- The fix-up of the links turns `pushItems` into `appendBlock`. -/
theorem fixup_eq (s : Segments K) (hs : Lens s) (its : List (Item K)) (kind : Kind) (hne : its ≠ []) :
    { s.pushItems its with
      contourPrev := (s.pushItems its).contourPrev.set s.len (firstPrev kind s.len its.length)
      contourNext := (s.pushItems its).contourNext.set (s.len + its.length - 1)
        (lastNext kind s.len its.length) } = appendBlock s (its, kind) := by
  obtain ⟨n, hn⟩ : ∃ n, its.length = n + 1 := by
    cases its with
    | nil => simp at hne
    | cons a l => exact ⟨l.length, rfl⟩
  rw [pushItems_eq]
  simp only [appendBlock, hn, blockPrev_eq, blockNext_eq]
  congr 1
  · rw [List.set_append_right _ _ (by rw [hs.1]), hs.1]
    simp
  · rw [List.set_append_right _ _ (by rw [hs.2.1]; omega), hs.2.1]
    congr 2; omega

/-- Without fix-up. -/
theorem nofix_eq (s : Segments K) (its : List (Item K)) :
    s.pushItems its = appendBlock s (its, .dangling) := by
  rw [pushItems_eq]
  simp only [appendBlock]
  congr 2
  · rw [blockPrev]
    apply List.map_congr_left
    intro k hk
    by_cases h : k = 0 <;> simp [h, firstPrev]
  · rw [blockNext]
    apply List.map_congr_left
    intro k hk
    by_cases h : k + 1 = its.length
    · simp [h, lastNext]; omega
    · simp [h]

theorem lens_appendBlock {s : Segments K} (hs : Lens s) (b : List (Item K) × Kind) :
    Lens (appendBlock s b) := by
  obtain ⟨h1, h2, h3, h4, h5⟩ := hs
  simp only [Lens, len_appendBlock]
  simp [appendBlock, blockPrev, blockNext, h1, h2, h3, h4, h5]

theorem lens_appendBlocks {bs : List (List (Item K) × Kind)} : ∀ {s : Segments K}, Lens s →
    Lens (appendBlocks s bs) := by
  induction bs with
  | nil => intro s h; exact h
  | cons b bs ih => intro s h; exact ih (lens_appendBlock h b)

theorem appendBlocks_append (s : Segments K) (as bs : List (List (Item K) × Kind)) :
    appendBlocks s (as ++ bs) = appendBlocks (appendBlocks s as) bs := by
  simp [appendBlocks, List.foldl_append]

theorem len_appendBlocks (bs : List (List (Item K) × Kind)) : ∀ s : Segments K,
    (appendBlocks s bs).len = s.len + (bs.map (fun b => b.1.length)).sum := by
  induction bs with
  | nil => intro s; simp [appendBlocks]
  | cons b bs ih =>
    intro s
    have : appendBlocks s (b :: bs) = appendBlocks (appendBlock s b) bs := rfl
    rw [this, ih, len_appendBlock]; simp; omega

/-- `s'` keeps everything `s` had. -/
def Frame (s s' : Segments K) : Prop :=
  (∃ l, s'.segs = s.segs ++ l) ∧ (∃ l, s'.orientation = s.orientation ++ l) ∧
  (∃ l, s'.contourPrev = s.contourPrev ++ l) ∧ (∃ l, s'.contourNext = s.contourNext ++ l) ∧
  (∃ l, s'.splitFromPredecessor = s.splitFromPredecessor ++ l) ∧ (∃ l, s'.inputSegs = s.inputSegs ++ l)

theorem Frame.refl (s : Segments K) : Frame s s :=
  ⟨⟨[], by simp⟩, ⟨[], by simp⟩, ⟨[], by simp⟩, ⟨[], by simp⟩, ⟨[], by simp⟩, ⟨[], by simp⟩⟩

theorem Frame.trans {a b c : Segments K} (h1 : Frame a b) (h2 : Frame b c) : Frame a c := by
  obtain ⟨⟨a1, e1⟩, ⟨a2, e2⟩, ⟨a3, e3⟩, ⟨a4, e4⟩, ⟨a5, e5⟩, ⟨a6, e6⟩⟩ := h1
  obtain ⟨⟨b1, f1⟩, ⟨b2, f2⟩, ⟨b3, f3⟩, ⟨b4, f4⟩, ⟨b5, f5⟩, ⟨b6, f6⟩⟩ := h2
  exact ⟨⟨_, by rw [f1, e1, List.append_assoc]⟩, ⟨_, by rw [f2, e2, List.append_assoc]⟩,
    ⟨_, by rw [f3, e3, List.append_assoc]⟩, ⟨_, by rw [f4, e4, List.append_assoc]⟩,
    ⟨_, by rw [f5, e5, List.append_assoc]⟩, ⟨_, by rw [f6, e6, List.append_assoc]⟩⟩

theorem frame_appendBlock (s : Segments K) (b : List (Item K) × Kind) : Frame s (appendBlock s b) :=
  ⟨⟨_, rfl⟩, ⟨_, rfl⟩, ⟨_, rfl⟩, ⟨_, rfl⟩, ⟨_, rfl⟩, ⟨_, rfl⟩⟩

theorem frame_appendBlocks (bs : List (List (Item K) × Kind)) : ∀ s : Segments K,
    Frame s (appendBlocks s bs) := by
  induction bs with
  | nil => intro s; exact Frame.refl s
  | cons b bs ih => intro s; exact (frame_appendBlock s b).trans (ih _)

theorem frame_lookup {s s' : Segments K} (hs : Lens s) (h : Frame s s') {i : Nat} (hi : i < s.len) :
    s'.segs[i]? = s.segs[i]? ∧ s'.orientation[i]? = s.orientation[i]? ∧ s'.next i = s.next i ∧
    s'.prev i = s.prev i ∧ s'.splitFromPredecessor[i]? = s.splitFromPredecessor[i]? ∧
    s'.inputSegs[i]? = s.inputSegs[i]? := by
  obtain ⟨⟨a1, e1⟩, ⟨a2, e2⟩, ⟨a3, e3⟩, ⟨a4, e4⟩, ⟨a5, e5⟩, ⟨a6, e6⟩⟩ := h
  obtain ⟨l1, l2, l3, l4, l5⟩ := hs
  refine ⟨?_, ?_, ?_, ?_, ?_, ?_⟩
  · rw [e1, List.getElem?_append_left hi]
  · rw [e2, List.getElem?_append_left (by omega)]
  · rw [Segments.next, Segments.next, e4, List.getElem?_append_left (by omega)]
  · rw [Segments.prev, Segments.prev, e3, List.getElem?_append_left (by omega)]
  · rw [e5, List.getElem?_append_left (by omega)]
  · rw [e6, List.getElem?_append_left (by omega)]

theorem frame_oriented {s s' : Segments K} (hs : Lens s) (h : Frame s s') {i : Nat} (hi : i < s.len) :
    s'.orientedStart i = s.orientedStart i ∧ s'.orientedEnd i = s.orientedEnd i := by
  obtain ⟨h1, h2, _⟩ := frame_lookup hs h hi
  simp only [Segments.orientedStart, Segments.orientedEnd, h1, h2, and_self]

/-- Lookups inside a freshly appended block. -/
theorem block_lookup {s : Segments K} (hs : Lens s) (b : List (Item K) × Kind) {k : Nat} {it : Item K}
    (hk : b.1[k]? = some it) :
    (appendBlock s b).segs[s.len + k]? = some it.seg ∧
    (appendBlock s b).orientation[s.len + k]? = some it.orient ∧
    (appendBlock s b).splitFromPredecessor[s.len + k]? = some it.split ∧
    (appendBlock s b).inputSegs[s.len + k]? = some it.input ∧
    (appendBlock s b).orientedStart (s.len + k) = some it.ends.1 ∧
    (appendBlock s b).orientedEnd (s.len + k) = some it.ends.2 ∧
    (appendBlock s b).prev (s.len + k) =
      some (if k = 0 then firstPrev b.2 s.len b.1.length else some (s.len + k - 1)) ∧
    (appendBlock s b).next (s.len + k) =
      some (if k + 1 = b.1.length then lastNext b.2 s.len b.1.length else some (s.len + k + 1)) := by
  obtain ⟨l1, l2, l3, l4, l5⟩ := hs
  have hlt : k < b.1.length := by
    rw [List.getElem?_eq_some_iff] at hk; exact hk.1
  have g1 : (appendBlock s b).segs[s.len + k]? = some it.seg := by
    simp only [appendBlock]
    rw [List.getElem?_append_right (by simp [Segments.len]), List.getElem?_map]
    simp [Segments.len, hk]
  have g2 : (appendBlock s b).orientation[s.len + k]? = some it.orient := by
    simp only [appendBlock]
    rw [List.getElem?_append_right (by omega), List.getElem?_map]
    simp [l3, hk]
  refine ⟨g1, g2, ?_, ?_, ?_, ?_, ?_, ?_⟩
  · simp only [appendBlock]
    rw [List.getElem?_append_right (by omega), List.getElem?_map]
    simp [l4, hk]
  · simp only [appendBlock]
    rw [List.getElem?_append_right (by omega), List.getElem?_map]
    simp [l5, hk]
  · simp only [Segments.orientedStart, g1, g2, Item.ends]
    cases it.orient <;> rfl
  · simp only [Segments.orientedEnd, g1, g2, Item.ends]
    cases it.orient <;> rfl
  · simp only [Segments.prev, appendBlock]
    rw [List.getElem?_append_right (by omega), blockPrev, List.getElem?_map]
    simp [l1, List.getElem?_range hlt]
  · simp only [Segments.next, appendBlock]
    rw [List.getElem?_append_right (by omega), blockNext, List.getElem?_map]
    simp [l2, List.getElem?_range hlt]

section
variable [LinearOrder K]

theorem Pt.not_lt {p q : Pt K} (h : ¬ p.lt q) : q.le p := by
  obtain ⟨px, py⟩ := p; obtain ⟨qx, qy⟩ := q
  simp only [Pt.lt, Pt.le, Pt.mk.injEq] at *
  rcases lt_trichotomy qy py with h1 | h1 | h1
  · exact .inl (.inl h1)
  · rcases lt_trichotomy qx px with h2 | h2 | h2
    · exact .inl (.inr ⟨h1, h2⟩)
    · exact .inr ⟨h2, h1⟩
    · exact absurd (.inr ⟨h1.symm, h2⟩) h
  · exact absurd (.inl h1) h

theorem Pt.not_le {p q : Pt K} (h : ¬ p.le q) : q.le p := by
  apply Pt.not_lt
  intro hl; exact h (.inl hl)

/-- An item is fine: stored in sweep order. -/
def Item.Ok (it : Item K) : Prop := it.seg.start.le it.seg.stop

theorem polyItem_ok (zero one : K) (e : Pt K × Pt K) :
    (polyItem zero one e).Ok ∧ (polyItem zero one e).ends = e := by
  unfold polyItem
  split
  · exact ⟨.inl (by assumption), rfl⟩
  · exact ⟨Pt.not_lt (by assumption), rfl⟩

theorem monotonicCubic_ends (p0 p1 p2 p3 : Pt K) :
    (Seg.monotonicCubic p0 p1 p2 p3).start = p0 ∧ (Seg.monotonicCubic p0 p1 p2 p3).stop = p3 := by
  unfold Seg.monotonicCubic; split <;> exact ⟨rfl, rfl⟩

/-- The non-degenerate directed pieces an input path segment contributes. -/
def segEdges (mono : PathSeg K → List (Cubic K × K × K)) : PathSeg K → List (Pt K × Pt K)
  | .line p0 p1 => if p0 = p1 then [] else [(p0, p1)]
  | s => (mono s).map fun m => (m.1.p0, m.1.p3)

theorem bezItems_ok (zero one : K) (mono : PathSeg K → List (Cubic K × K × K)) (g : PathSeg K) :
    (∀ it ∈ bezItems zero one mono g, it.Ok) ∧
    (bezItems zero one mono g).map Item.ends = segEdges mono g := by
  have curve : ∀ g : PathSeg K, (∀ it ∈ (mono g).map (fun m =>
      if m.1.p0.le m.1.p3 then
        (⟨Seg.monotonicCubic m.1.p0 m.1.p1 m.1.p2 m.1.p3, true, m.2, g⟩ : Item K)
      else ⟨Seg.monotonicCubic m.1.p3 m.1.p2 m.1.p1 m.1.p0, false, m.2, g⟩), it.Ok) ∧
      ((mono g).map (fun m =>
      if m.1.p0.le m.1.p3 then
        (⟨Seg.monotonicCubic m.1.p0 m.1.p1 m.1.p2 m.1.p3, true, m.2, g⟩ : Item K)
      else ⟨Seg.monotonicCubic m.1.p3 m.1.p2 m.1.p1 m.1.p0, false, m.2, g⟩)).map Item.ends =
      (mono g).map fun m => (m.1.p0, m.1.p3) := by
    intro g
    constructor
    · intro it hit
      rw [List.mem_map] at hit
      obtain ⟨m, _, rfl⟩ := hit
      split
      · rename_i h
        simp only [Item.Ok, (monotonicCubic_ends _ _ _ _).1, (monotonicCubic_ends _ _ _ _).2]; exact h
      · rename_i h
        simp only [Item.Ok, (monotonicCubic_ends _ _ _ _).1, (monotonicCubic_ends _ _ _ _).2]
        exact Pt.not_le h
    · rw [List.map_map]
      apply List.map_congr_left
      intro m _
      simp only [Function.comp]
      split <;> simp [Item.ends, (monotonicCubic_ends _ _ _ _).1, (monotonicCubic_ends _ _ _ _).2]
  cases g with
  | line p0 p1 =>
    simp only [bezItems, segEdges]
    by_cases h : p0.le p1
    · simp only [h, if_true]
      by_cases e : p0 = p1
      · simp [e]
      · simp [e, Item.Ok, Item.ends, Seg.start, Seg.stop, h]
    · simp only [h, if_false]
      have hh := Pt.not_le h
      by_cases e : p0 = p1
      · simp [e]
      · have e' : ¬ p1 = p0 := fun x => e x.symm
        simp [e, e', Item.Ok, Item.ends, Seg.start, Seg.stop, hh]
  | quad p0 p1 p2 => exact curve _
  | cubic p0 p1 p2 p3 => exact curve _

theorem addPoints_eq (zero one : K) (atY : Seg K → K → K) (s : Segments K) (hs : Lens s)
    (ps : List (Pt K)) (h : 1 < ps.length) :
    s.addPoints zero one atY ps =
      (appendBlock s ((pairs ps).map (polyItem zero one), .chain)).updateEnterExit atY s.len := by
  have hne : (pairs ps).map (polyItem zero one) ≠ [] := by
    match ps, h with
    | a :: b :: rest, _ => simp [pairs]
  have hlen : 0 < ((pairs ps).map (polyItem zero one)).length := List.length_pos_iff.2 hne
  simp only [Segments.addPoints, if_neg (show ¬ ps.length ≤ 1 by omega), len_pushItems]
  rw [if_pos (by omega)]
  rw [← fixup_eq s hs _ .chain hne]
  congr 2
  simp only [setLast]
  congr 1
  rw [pushItems_eq]
  simp [hs.2.1]

theorem addPolylineRaw_eq (zero one : K) (s : Segments K) (hs : Lens s)
    (ps : List (Pt K)) (h : 1 < ps.length) :
    s.addPolylineRaw zero one ps =
      appendBlock s ((cyclicPairs ps).map (polyItem zero one), .cycle) := by
  have hne : (cyclicPairs ps).map (polyItem zero one) ≠ [] := by
    match ps, h with
    | a :: b :: rest, _ => simp [cyclicPairs, pairs]
  have hlen : 0 < ((cyclicPairs ps).map (polyItem zero one)).length := List.length_pos_iff.2 hne
  simp only [Segments.addPolylineRaw, if_neg (show ¬ ps.length ≤ 1 by omega), len_pushItems]
  rw [if_pos (by omega)]
  rw [← fixup_eq s hs _ .cycle hne]
  simp only [firstPrev, lastNext, setLast]
  congr 2
  rw [pushItems_eq]
  simp [hs.2.1]

end

end Verif.Segs
