import Verif.Full.Arena
import Verif.Sweep.Main
import Verif.Sweep.Props
import Verif.Geom.Props

/-! # The sweep on an arena satisfies the contract of the driver -/

namespace Verif.Full
open Verif.Segs (Segments)
set_option linter.unusedSectionVars false

variable {T W : Type} [AddCommGroup W]

/-! ## The segments -/

theorem pt_y (p : Segs.Pt ℝ) : (pt p).y = p.y := rfl

theorem seg_start (g : Segs.Seg ℝ) : (seg g).start = pt g.start := by cases g <;> rfl
theorem seg_stop (g : Segs.Seg ℝ) : (seg g).stop = pt g.stop := by cases g <;> rfl

theorem segAt_eq {s : Segments ℝ} {i : Nat} {g : Segs.Seg ℝ} (h : s.segs[i]? = some g) : segAt s i = seg g := by
  unfold segAt; rw [h]

theorem Fine.le {g : Segs.Seg ℝ} (h : Fine g) : g.start.y ≤ g.stop.y := by
  rcases h.1 with h1 | h1
  · rcases h1 with h1 | h1
    · exact h1.le
    · exact h1.1.le
  · rw [h1]

theorem Fine.horizontal {g : Segs.Seg ℝ} (h : Fine g) : g.isHorizontal = decide (g.start.y = g.stop.y) := by
  cases g with
  | line p q => rfl
  | cubic p0 p1 p2 p3 =>
    have := (h.2 _ _ _ _ rfl).1
    have h2 : p0.y < p3.y := this
    simp [Segs.Seg.isHorizontal, Segs.Seg.start, Segs.Seg.stop, h2.ne]

theorem Fine.down {g : Segs.Seg ℝ} (h : Fine g) (hh : g.isHorizontal = false) : (seg g).Down := by
  cases g with
  | line p q =>
    have h1 : ¬ p.y = q.y := by simpa [Segs.Seg.isHorizontal] using hh
    exact lt_of_le_of_ne h.le h1
  | cubic p0 p1 p2 p3 => exact h.2 _ _ _ _ rfl

/-! ## The contract -/

variable {s : Segments ℝ} {tags : List T} {cfg : Cfg}

theorem mem_enter (h : Arena s tags) (i : Nat) : i ∈ s.enter.map Prod.snd ↔ i < s.len := by
  rw [(h.sched.enter_perm.map Prod.snd).mem_iff, List.map_map]
  have : (s.segs.zipIdx.map (Prod.snd ∘ fun g => (g.1.start.y, g.2))) = List.range s.len := by
    rw [List.range_eq_range']
    exact List.zipIdx_map_snd 0 s.segs
  rw [this, List.mem_range]

theorem mem_segs (h : Arena s tags) (i : Nat) : i ∈ (env cfg s).segs ↔ i < s.len := mem_enter h i

theorem seg_get {i : Nat} (hi : i < s.len) : ∃ g, s.segs[i]? = some g := ⟨_, List.getElem?_eq_getElem hi⟩

theorem Arena.seg_fine (h : Arena s tags) {i : Nat} (hi : i < s.len) : ∃ g, s.segs[i]? = some g ∧ Fine g := by
  obtain ⟨g, hg⟩ := seg_get hi
  exact ⟨g, hg, h.fine g (List.mem_of_getElem? hg)⟩

theorem startY_eq {i : Nat} {g : Segs.Seg ℝ} (h : s.segs[i]? = some g) : (env cfg s).startY i = g.start.y := by
  change (segAt s i).start.y = _; rw [segAt_eq h, seg_start]; rfl
theorem startX_eq {i : Nat} {g : Segs.Seg ℝ} (h : s.segs[i]? = some g) : (env cfg s).startX i = g.start.x := by
  change (segAt s i).start.x = _; rw [segAt_eq h, seg_start]; rfl
theorem endY_eq {i : Nat} {g : Segs.Seg ℝ} (h : s.segs[i]? = some g) : (env cfg s).endY i = g.stop.y := by
  change (segAt s i).stop.y = _; rw [segAt_eq h, seg_stop]; rfl
theorem endX_eq {i : Nat} {g : Segs.Seg ℝ} (h : s.segs[i]? = some g) : (env cfg s).endX i = g.stop.x := by
  change (segAt s i).stop.x = _; rw [segAt_eq h, seg_stop]; rfl

theorem horizontal_eq (h : Arena s tags) {i : Nat} {g : Segs.Seg ℝ} (hg : s.segs[i]? = some g) : (env cfg s).isHorizontal i = g.isHorizontal := by
  have hf := h.fine g (List.mem_of_getElem? hg)
  rw [hf.horizontal]
  unfold Sweep.Env.isHorizontal
  rw [startY_eq hg, endY_eq hg]

theorem Arena.down (h : Arena s tags) {i : Nat} (hi : i < s.len) (hh : (env cfg s).isHorizontal i = false) : (segAt s i).Down := by
  obtain ⟨g, hg, hf⟩ := h.seg_fine hi
  rw [horizontal_eq h hg] at hh
  rw [segAt_eq hg]
  exact hf.down hh

theorem env_sched (h : Arena s tags) : (env cfg s).Sched := by
  have hz : ∀ {g : Segs.Seg ℝ} {n : Nat}, (g, n) ∈ s.segs.zipIdx → s.segs[n]? = some g := fun hm => List.mk_mem_zipIdx_iff_getElem?.1 hm
  have hnd : ∀ l : List (Segs.Seg ℝ × Nat), l.Sublist s.segs.zipIdx → (l.map Prod.snd).Nodup := by
    intro l hl
    have h1 : (s.segs.zipIdx.map Prod.snd).Nodup := by
      rw [List.zipIdx_map_snd]; exact List.nodup_range'
    exact List.Nodup.sublist (hl.map _) h1
  refine ⟨?_, ?_, ?_, ?_, ?_, ?_, ?_, ?_⟩
  · intro p hp
    obtain ⟨⟨g, n⟩, hm, rfl⟩ := List.mem_map.1 (h.sched.enter_perm.mem_iff.1 hp)
    exact (startY_eq (hz hm)).symm
  · exact h.sched.enter_sorted.imp fun {a b} hab => hab.elim le_of_lt fun hab => hab.1.le
  · change (s.enter.map Prod.snd).Nodup
    rw [(h.sched.enter_perm.map Prod.snd).nodup_iff, List.map_map]
    exact hnd _ (List.Sublist.refl _)
  · intro p hp
    obtain ⟨⟨g, n⟩, hm, rfl⟩ := List.mem_map.1 (h.sched.exit_perm.mem_iff.1 hp)
    exact (endY_eq (hz (List.mem_filter.1 hm).1)).symm
  · exact h.sched.exit_sorted
  · change (s.exit.map Prod.snd).Nodup
    rw [(h.sched.exit_perm.map Prod.snd).nodup_iff, List.map_map]
    exact hnd _ List.filter_sublist
  · intro i
    change i ∈ s.exit.map Prod.snd ↔ i ∈ s.enter.map Prod.snd ∧ _
    rw [mem_enter h, (h.sched.exit_perm.map Prod.snd).mem_iff, List.map_map]
    constructor
    · intro hm0
      obtain ⟨⟨g, n⟩, hm1, rfl⟩ := List.mem_map.1 hm0
      obtain ⟨hm, hh⟩ := List.mem_filter.1 hm1
      have hg := hz hm
      refine ⟨(List.getElem?_eq_some_iff.1 hg).1, ?_⟩
      change (env cfg s).isHorizontal n = false
      rw [horizontal_eq h hg]
      simpa using hh
    · rintro ⟨hi, hh⟩
      obtain ⟨g, hg⟩ := seg_get hi
      rw [horizontal_eq h hg] at hh
      exact List.mem_map.2 ⟨(g, i), List.mem_filter.2 ⟨List.mk_mem_zipIdx_iff_getElem?.2 hg, by simpa using hh⟩, rfl⟩
  · intro i hi
    obtain ⟨g, hg, hf⟩ := h.seg_fine ((mem_enter h i).1 hi)
    rw [startY_eq hg, endY_eq hg]
    exact hf.le

theorem env_exact (h : Arena s tags) : (env cfg s).Exact := by
  intro i hi hh
  exact Geom.C42_ends _ (h.down ((mem_segs h i).1 hi) hh)

theorem env_contours (h : Arena s tags) (single : T → Bool → W) (hn : ∀ t b, single t (!b) = - single t b) :
    (env cfg s).Contours (contribution single tags) := by
  have oend : ∀ {i : Nat} {p : Segs.Pt ℝ}, s.orientedEnd i = some p → (env cfg s).oEnd i = (p.x, p.y) := by
    intro i p hp
    unfold Segments.orientedEnd at hp
    cases ho : s.orientation[i]? with
    | none => rw [ho] at hp; simp at hp
    | some o =>
      cases hg : s.segs[i]? with
      | none => rw [ho, hg] at hp; simp at hp
      | some g =>
        rw [ho, hg] at hp
        simp only [Option.some.injEq] at hp
        unfold Sweep.Env.oEnd
        rw [startX_eq hg, startY_eq hg, endX_eq hg, endY_eq hg]
        have : (env cfg s).orient i = o := by change (s.orientation[i]?).getD true = o; rw [ho]; rfl
        rw [this, ← hp]
        cases o <;> rfl
  have ostart : ∀ {i : Nat} {p : Segs.Pt ℝ}, s.orientedStart i = some p → (env cfg s).oStart i = (p.x, p.y) := by
    intro i p hp
    unfold Segments.orientedStart at hp
    cases ho : s.orientation[i]? with
    | none => rw [ho] at hp; simp at hp
    | some o =>
      cases hg : s.segs[i]? with
      | none => rw [ho, hg] at hp; simp at hp
      | some g =>
        rw [ho, hg] at hp
        simp only [Option.some.injEq] at hp
        unfold Sweep.Env.oStart
        rw [startX_eq hg, startY_eq hg, endX_eq hg, endY_eq hg]
        have : (env cfg s).orient i = o := by change (s.orientation[i]?).getD true = o; rw [ho]; rfl
        rw [this, ← hp]
        cases o <;> rfl
  refine ⟨?_, ?_, ?_, ?_⟩
  · intro i hi
    obtain ⟨j, hj, h1, h2, ⟨p, h3, h4⟩, h5⟩ := h.next i ((mem_segs h i).1 hi)
    refine ⟨j, (mem_segs h j).2 hj, ?_, ?_, ?_, ?_⟩
    · change (s.contourNext[i]?).join = _
      rw [show s.contourNext[i]? = _ from h1]; rfl
    · change (s.contourPrev[j]?).join = _
      rw [show s.contourPrev[j]? = _ from h2]; rfl
    · rw [oend h3, ostart h4]
    · unfold contribution; rw [h5]
  · intro i hi
    obtain ⟨j, hj, h1, h2⟩ := h.prev i ((mem_segs h i).1 hi)
    refine ⟨j, (mem_segs h j).2 hj, ?_, ?_⟩
    · change (s.contourPrev[i]?).join = _
      rw [show s.contourPrev[i]? = _ from h1]; rfl
    · change (s.contourNext[j]?).join = _
      rw [show s.contourNext[j]? = _ from h2]; rfl
  · intro i hi
    unfold contribution
    cases tags[i]? with
    | none => simp
    | some t => exact hn t true
  · intro i hi hh
    obtain ⟨g, hg, hf⟩ := h.seg_fine ((mem_segs h i).1 hi)
    rw [startX_eq hg, endX_eq hg]
    rw [horizontal_eq h hg, hf.horizontal, decide_eq_true_eq] at hh
    rcases hf.1 with h1 | h1
    · rcases h1 with h1 | h1
      · exact absurd hh h1.ne
      · exact h1.2.le
    · rw [h1]

/-- Up to the tolerance, segment `a` is west of segment `b` at height `y`: there it is less than `2 eps` to the right of a point of `b` that is at most
`eps` higher or lower, and `b` is at most `2 eps` to the left of such a point of `a`. -/
def West (cfg : Cfg) (s : Segments ℝ) (y : ℝ) (a b : Nat) : Prop :=
  (∃ y', |y' - y| ≤ cfg.eps ∧ (segAt s b).start.y ≤ y' ∧ y' ≤ (segAt s b).stop.y ∧ (segAt s a).atY y < (segAt s b).atY y' + 2 * cfg.eps) ∧
  ∃ y', |y' - y| ≤ cfg.eps ∧ (segAt s a).start.y ≤ y' ∧ y' ≤ (segAt s a).stop.y ∧ (segAt s a).atY y' ≤ (segAt s b).atY y + 2 * cfg.eps

/-- Whenever a segment is listed before another one on a sweep line where a segment starts or ends, it is west of it, up to the tolerance. -/
def LineOrder (cfg : Cfg) (s : Segments ℝ) (fuel : Nat) : Prop :=
  ∀ st, Sweep.Reached (env cfg s) fuel st → (env cfg s).Corner st.y → (st.line.map Sweep.Entry.seg).Pairwise (West cfg s st.y)

/-- The binary search of the tree (C05, C60). -/
def Searches (pp : (Nat → Bool) → List Nat → Nat) : Prop :=
  (∀ P l, pp P l ≤ l.length) ∧ (∀ (P : Nat → Bool) (l : List Nat) (i a : Nat), i + 1 = pp P l → l[i]? = some a → P a = true) ∧
  (∀ (P : Nat → Bool) (l : List Nat) (a : Nat), l[pp P l]? = some a → P a = false) ∧
  (∀ (P Q : Nat → Bool) (l : List Nat), (∀ a ∈ l, P a = true → Q a = true) → pp P l ≤ pp Q l)

theorem env_pp (h : Searches cfg.pp) : (env cfg s).PP := ⟨h.1, h.2.1, h.2.2.1, h.2.2.2⟩

/-- The segments on a line of the sweep are in range and not horizontal. -/
theorem on_line (h : Arena s tags) (hpp : Searches cfg.pp) {fuel : Nat} {st : Sweep.State ℝ} (hr : Sweep.Reached (env cfg s) fuel st) {a : Nat}
    (ha : a ∈ st.line.map Sweep.Entry.seg) : a < s.len ∧ (env cfg s).isHorizontal a = false ∧ (env cfg s).startY a ≤ st.y ∧ st.y ≤ (env cfg s).endY a := by
  obtain ⟨_, S0, M, L, hF⟩ := hr.spec (env_sched h) (env_pp hpp)
  have : a ∈ Sweep.lineIds st.line := by
    obtain ⟨e, he, rfl⟩ := List.mem_map.1 ha
    exact List.mem_flatMap.2 ⟨e, he, by simp [Sweep.Entry.ids]⟩
  obtain ⟨h1, h2⟩ := (hF.mem a).1 (hF.ids_perm.mem_iff.1 this)
  exact ⟨(mem_segs h a).1 h1, h2⟩

/-- Segments at the height `y` that are listed from west to east are in the order that the sweep expects. -/
theorem ord_of_west (h : Arena s tags) (he : 0 < cfg.eps) {y : ℝ} {l : List Nat}
    (hon : ∀ a ∈ l, a < s.len ∧ (env cfg s).isHorizontal a = false ∧ (env cfg s).startY a ≤ y ∧ y ≤ (env cfg s).endY a)
    (ho : (env cfg s).Corner y → l.Pairwise (West cfg s y)) : Sweep.OrdC (env cfg s) y l := by
  have key : (env cfg s).Corner y → ∀ i j a b : Nat, i ≤ j → l[i]? = some a → l[j]? = some b → West cfg s y a b := by
    intro hcor i j a b hij ha hb
    rcases Nat.lt_or_ge i j with hlt | hge
    · obtain ⟨hi, rfl⟩ := List.getElem?_eq_some_iff.1 ha
      obtain ⟨hj, rfl⟩ := List.getElem?_eq_some_iff.1 hb
      exact List.pairwise_iff_getElem.1 (ho hcor) i j hi hj hlt
    · have : i = j := le_antisymm hij hge
      subst this
      rw [ha] at hb
      obtain rfl : a = b := by simpa using hb
      obtain ⟨hl, hh, hy1, hy2⟩ := hon a (List.mem_of_getElem? ha)
      exact ⟨⟨y, by simpa using he.le, hy1, hy2, by linarith⟩, y, by simpa using he.le, hy1, hy2, by linarith⟩
  constructor
  · intro hcor i j a b hij ha hb
    obtain ⟨⟨y', h1, h2, h3, h4⟩, _⟩ := key hcor i j a b hij ha hb
    obtain ⟨hl, hh, _, _⟩ := hon b (List.mem_of_getElem? hb)
    obtain ⟨_, h5⟩ := Geom.C42_bracket _ (h.down hl hh) y cfg.eps y' he.le h1 h2 h3
    change (segAt s a).atY y < (segAt s b).upper y cfg.eps + cfg.eps
    linarith
  · intro hcor i j a b hij ha hb
    obtain ⟨_, y', h1, h2, h3, h4⟩ := key hcor i j a b hij ha hb
    obtain ⟨hl, hh, _, _⟩ := hon a (List.mem_of_getElem? ha)
    obtain ⟨h5, _⟩ := Geom.C42_bracket _ (h.down hl hh) y cfg.eps y' he.le h1 h2 h3
    change (segAt s a).lower y cfg.eps - cfg.eps ≤ (segAt s b).atY y
    linarith

theorem env_ord (h : Arena s tags) (he : 0 < cfg.eps) (hpp : Searches cfg.pp) {fuel : Nat} (ho : LineOrder cfg s fuel) :
    ∀ st, Sweep.Reached (env cfg s) fuel st → Sweep.OrdC (env cfg s) st.y (st.line.map Sweep.Entry.seg) :=
  fun st hr => ord_of_west h he (fun _ ha => on_line h hpp hr ha) (ho st hr)

/-- Everything the driver needs holds for the arena. -/
theorem env_valid (h : Arena s tags) (he : 0 < cfg.eps) (hpp : Searches cfg.pp) (single : T → Bool → W) (hn : ∀ t b, single t (!b) = - single t b)
    {fuel : Nat} (ho : LineOrder cfg s fuel) : (env cfg s).Valid (contribution single tags) fuel where
  sched := env_sched h
  exact := env_exact h
  pp := env_pp hpp
  contours := env_contours h single hn
  ord := env_ord h he hpp ho
  neg := by
    intro i b
    unfold contribution
    cases tags[i]? with
    | none => simp
    | some t => exact hn t b

end Verif.Full
